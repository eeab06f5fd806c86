import Verif.Model.MixInt
import Mathlib.Analysis.SpecialFunctions.Pow.Real
import Mathlib.Analysis.Real.Sqrt
import Mathlib.Logic.Equiv.Basic
import Mathlib.Data.List.FinRange

/-!
# Sampling methods

Model of `/repo/crates/doe/src/`: `traits.rs:40-45`, `doe/src/lhs.rs:72-297`, `full_factorial.rs:43-81`,
`random.rs:67-71`, `doe/src/utils.rs:9-55`.

Conventions. A design is a function of the row and the column. Arithmetic is that of `ℝ` (of an arbitrary
ordered field for the full factorial design). The random generator is a parameter: uniform draws are
arbitrary numbers, `shuffle` is an arbitrary permutation, `gen_range` an arbitrary index. The loop
`while i2 == i1` that draws the second row of an exchange is modelled by its outcome: a pair of distinct
rows (there is none, and the loop does not end, if the design has one row).
-/

set_option autoImplicit false

namespace Verif.Doe

open Verif

/-- A normalized design with `ns` rows and `nx` columns. -/
abbrev Design (ns nx : ℕ) := Fin ns → Fin nx → ℝ

variable {ns nx : ℕ}

/-! ## `sample` -/

/-- `SamplingMethod::sample` (`traits.rs:40-45`): `normalized * (upper - lower) + lower`. -/
def sample (lower upper : Fin nx → ℝ) (x : Design ns nx) : Design ns nx :=
  fun i j => x i j * (upper j - lower j) + lower j

/-! ## Latin hypercubes -/

/-- `Array::linspace(0., 1., ns + 1)[i]` (`doe/src/lhs.rs:238, 261`). -/
noncomputable def cut (ns i : ℕ) : ℝ := (i : ℝ) / ns

/-- Random choices of a classic LHS: uniform draws and one shuffle per column. -/
structure Draw (ns nx : ℕ) where
  rnd : Design ns nx
  shuffle : Fin nx → Equiv.Perm (Fin ns)

/-- `_classic_lhs` (`doe/src/lhs.rs:236-257`). -/
noncomputable def classic (d : Draw ns nx) : Design ns nx :=
  let rdpoints : Design ns nx := fun i j => d.rnd i j * (cut ns (i + 1) - cut ns i) + cut ns i
  fun i j => rdpoints (d.shuffle j i) j

/-- Successive contents of the array `c` of `_centered_lhs` (`doe/src/lhs.rs:266-272`): the same array is shuffled
again for each column. -/
def reshuffle (c : Fin ns → ℝ) (shuffle : ℕ → Equiv.Perm (Fin ns)) : ℕ → Fin ns → ℝ
  | 0 => fun i => c (shuffle 0 i)
  | j + 1 => fun i => reshuffle c shuffle j (shuffle (j + 1) i)

/-- `_centered_lhs` (`doe/src/lhs.rs:259-274`). -/
noncomputable def centered (shuffle : ℕ → Equiv.Perm (Fin ns)) : Design ns nx :=
  fun i j => reshuffle (fun k => (cut ns k + cut ns (k + 1)) / 2) shuffle j i

/-- `l2_dist` of two rows. -/
noncomputable def l2dist (a b : Fin nx → ℝ) : ℝ := Real.sqrt (∑ j, (a j - b j) ^ 2)

/-- The pairs of `pdist` (`doe/src/utils.rs:13-15`). -/
def pairs (ns : ℕ) : List (Fin ns × Fin ns) :=
  (List.finRange ns).flatMap fun i => ((List.finRange ns).filter (fun j => i < j)).map fun j => (i, j)

/-- `pdist` (`doe/src/utils.rs:9-27`). -/
noncomputable def pdist (x : Design ns nx) : List ℝ := (pairs ns).map fun p => l2dist (x p.1) (x p.2)

/-- `pdist(&lhs).min().unwrap()`: panics if there is no pair. -/
noncomputable def listMin : List ℝ → Except Panic ℝ
  | [] => .error .emptyReduction
  | e :: es => .ok (es.foldl (fun a b => if b < a then b else a) e)

/-- The loop of `_maximin_lhs` (`doe/src/lhs.rs:284-295`) on the designs drawn by it. -/
noncomputable def maximinLoop (maxDist : ℝ) (best : Design ns nx) :
    List (Design ns nx) → Except Panic (Design ns nx)
  | [] => .ok best
  | d :: ds => do
    let m ← listMin (pdist d)
    if maxDist < m then maximinLoop m d ds else maximinLoop maxDist best ds

/-- `_maximin_lhs` (`doe/src/lhs.rs:276-297`): `first` is the first draw, `ds` the following ones. -/
noncomputable def maximin (first : Design ns nx) (ds : List (Design ns nx)) :
    Except Panic (Design ns nx) := do
  let m ← listMin (pdist first)
  maximinLoop m first ds

/-! ## Optimized LHS -/

/-- `_phip` (`doe/src/lhs.rs:187-189`). -/
noncomputable def phip (p : ℝ) (x : Design ns nx) : ℝ :=
  ((pdist x).map fun v => v ^ (-p)).sum ^ (1 / p)

/-- `x.swap([i1, k], [i2, k])` (`doe/src/lhs.rs:232`). -/
def swapCell (x : Design ns nx) (k : Fin nx) (i1 i2 : Fin ns) : Design ns nx :=
  fun i j => if j = k then x (Equiv.swap i1 i2 i) j else x i j

/-- `_phip_swap` (`doe/src/lhs.rs:191-234`): the design after the exchange and the criterion updated from its value
`ph` before the exchange. -/
noncomputable def phipSwap (p : ℝ) (x : Design ns nx) (k : Fin nx) (ph : ℝ) (i1 i2 : Fin ns) :
    Design ns nx × ℝ :=
  let rest := (List.finRange ns).filter fun i => i ≠ i1 ∧ i ≠ i2
  let dist1 := rest.map fun r => l2dist (x i1) (x r)
  let dist2 := rest.map fun r => l2dist (x i2) (x r)
  let m1 := rest.map fun r => (x r k - x i1 k) * (x r k - x i1 k)
  let m2 := rest.map fun r => (x r k - x i2 k) * (x r k - x i2 k)
  let d1 := (List.zipWith (· + ·) (List.zipWith (· - ·) (dist1.map fun v => v * v) m1) m2).map
    fun v => v ^ (-p / 2)
  let d2 := (List.zipWith (· - ·) (List.zipWith (· + ·) (dist2.map fun v => v * v) m1) m2).map
    fun v => v ^ (-p / 2)
  let res := (List.zipWith (· - ·) d1 (dist1.map fun v => v ^ (-p))).sum
    + (List.zipWith (· - ·) d2 (dist2.map fun v => v ^ (-p))).sum
  (swapCell x k i1 i2, (ph ^ p + res) ^ (1 / p))

/-- Variables of `_maximin_ese` that live through the loops. `seen` is not in the code: it records the
designs built by the exchanges. -/
structure Ese (ns nx : ℕ) where
  t : ℝ
  own : Design ns nx
  best : Design ns nx
  phip : ℝ
  phipBest : ℝ
  seen : List (Design ns nx)

/-- Random choices of one inner iteration: the exchanged rows of the candidates (20 in the code) and the
number `r` of the acceptance test. -/
structure EseChoice (ns : ℕ) where
  swaps : List {p : Fin ns × Fin ns // p.1 ≠ p.2}
  r : ℝ

/-- One inner iteration (`doe/src/lhs.rs:138-167`) for column `k = (i + 1) % nx`. `counts` is `(n_acpt, n_imp)`. -/
noncomputable def eseInner (p : ℝ) (k : Fin nx) (c : EseChoice ns) (s : Ese ns nx) (counts : ℕ × ℕ) :
    Except Panic (Ese ns nx × (ℕ × ℕ)) := do
  let cands := c.swaps.map fun q => phipSwap p s.own k s.phip q.1.1 q.1.2
  let kbest ← MixInt.argmin (cands.map Prod.snd)
  match cands[kbest]? with
  | none => .error .outOfBounds
  | some (xTry, phipTry) =>
    let seen := s.seen ++ cands.map Prod.fst
    if phipTry - s.phip ≤ s.t * c.r then
      if phipTry < s.phipBest then
        .ok (⟨s.t, xTry, xTry, phipTry, phipTry, seen⟩, (counts.1 + 1, counts.2 + 1))
      else
        .ok (⟨s.t, xTry, s.best, phipTry, s.phipBest, seen⟩, (counts.1 + 1, counts.2))
    else .ok (⟨s.t, s.own, s.best, s.phip, s.phipBest, seen⟩, counts)

/-- The inner loop (`doe/src/lhs.rs:138-167`), from iteration `i`; the list has one entry per iteration. -/
noncomputable def eseInnerLoop (p : ℝ) (hx : 0 < nx) (i : ℕ) (s : Ese ns nx) (counts : ℕ × ℕ) :
    List (EseChoice ns) → Except Panic (Ese ns nx × (ℕ × ℕ))
  | [] => .ok (s, counts)
  | c :: cs =>
    eseInner p ⟨(i + 1) % nx, Nat.mod_lt _ hx⟩ c s counts >>= fun r =>
      eseInnerLoop p hx (i + 1) r.1 r.2 cs

/-- Temperature update (`doe/src/lhs.rs:168-182`). -/
noncomputable def eseTemp (inner : ℕ) (s : Ese ns nx) (counts : ℕ × ℕ) : ℝ :=
  let pAcpt : ℝ := counts.1 / inner
  let pImp : ℝ := counts.2 / inner
  if s.phip - s.phipBest > 1 / 1000 then
    if pAcpt ≥ 1 / 10 ∧ pImp < pAcpt then s.t * (8 / 10)
    else if pAcpt ≥ 1 / 10 ∧ |pImp - pAcpt| < 1 / 2 ^ 52 then s.t
    else s.t / (8 / 10)
  else if pAcpt ≤ 1 / 10 then s.t / (7 / 10)
  else s.t * (9 / 10)

/-- The outer loop (`doe/src/lhs.rs:134-183`); the list has one entry per iteration. -/
noncomputable def eseOuterLoop (p : ℝ) (hx : 0 < nx) (s : Ese ns nx) :
    List (List (EseChoice ns)) → Except Panic (Ese ns nx)
  | [] => .ok s
  | cs :: css =>
    eseInnerLoop p hx 0 s (0, 0) cs >>= fun r =>
      eseOuterLoop p hx { r.1 with
        t := eseTemp cs.length r.1 r.2 } css

/-- State of `_maximin_ese` before its loops (`doe/src/lhs.rs:121-132`). -/
noncomputable def eseInit (p : ℝ) (x : Design ns nx) : Ese ns nx :=
  ⟨5 / 1000 * phip p x, x, x, phip p x, phip p x, []⟩

/-- `_maximin_ese` (`doe/src/lhs.rs:120-185`), final state; the design returned is `best`. The exponent is 10. The
numbers of iterations are those of the lists. -/
noncomputable def maximinEse (hx : 0 < nx) (x : Design ns nx) (css : List (List (EseChoice ns))) :
    Except Panic (Ese ns nx) :=
  eseOuterLoop 10 hx (eseInit 10 x) css

/-- `LhsKind` (`doe/src/lhs.rs`) together with the random choices made by a call of `normalized_sample`. -/
inductive LhsCall (ns nx : ℕ)
  | classic (d : Draw ns nx)
  | centered (shuffle : ℕ → Equiv.Perm (Fin ns))
  | maximin (first : Draw ns nx) (others : List (Draw ns nx))
  | centeredMaximin (first : ℕ → Equiv.Perm (Fin ns)) (others : List (ℕ → Equiv.Perm (Fin ns)))
  | optimized (d : Draw ns nx) (css : List (List (EseChoice ns)))

/-- `Lhs::normalized_sample` (`doe/src/lhs.rs:72-86`). With no column the optimized kind has no iteration
(`doe/src/lhs.rs:80-82`). -/
noncomputable def lhsSample : LhsCall ns nx → Except Panic (Design ns nx)
  | .classic d => .ok (classic d)
  | .centered sh => .ok (centered sh)
  | .maximin d ds => maximin (classic d) (ds.map classic)
  | .centeredMaximin d ds => maximin (centered d) (ds.map centered)
  | .optimized d css =>
    if hx : 0 < nx then do
      let s ← maximinEse hx (classic d) css
      .ok s.best
    else .ok (classic d)

/-! ## Random sampling -/

/-- `Random::normalized_sample` (`random.rs:67-71`): the uniform draws. -/
def randomSample (rnd : Design ns nx) : Design ns nx := rnd

/-! ## Full factorial -/

section FullFactorial

variable {K : Type} [Field K] [LinearOrder K] [IsStrictOrderedRing K] [FloorRing K]

/-- `num_list[ind] += 1`. -/
def bump (l : List ℕ) (i : ℕ) : List ℕ := l.modify i (· + 1)

/-- The loop on the numbers of levels (`full_factorial.rs:50-54`). `fuel` bounds the number of iterations;
`fullFactorial` gives more than the loop needs (`C06_levels`). -/
def levelLoop (K : Type) [Field K] [LinearOrder K] (ns : ℕ) : ℕ → List ℕ → Except Panic (List ℕ)
  | 0, nums => .ok nums
  | fuel + 1, nums =>
    if nums.prod < ns then do
      let w : List K := nums.map fun (v : ℕ) => (v : K) / (nums.sum : ℕ)
      let diff : List K := w.map fun v => 1 / (nums.length : ℕ) - v
      let ind ← MixInt.argmax diff
      levelLoop K ns fuel (bump nums ind)
    else .ok nums

/-- Value of level `i` of a factor with `n` levels (`full_factorial.rs:66-70`). -/
def levelValue (K : Type) [Field K] (n i : ℕ) : K := if n > 1 then (i : K) / ((n - 1 : ℕ) : K) else (i : K)

/-- Column of a factor with `n` levels (`full_factorial.rs:62-78`): every level is repeated `levelRepeat`
times, and the whole is repeated `rangeRepeat` times. -/
def ffColumn (K : Type) [Field K] (n levelRepeat rangeRepeat : ℕ) : List K :=
  let chunk := (List.range n).flatMap fun i => List.replicate levelRepeat (levelValue K n i)
  (List.replicate rangeRepeat chunk).flatten

/-- Loop on the columns (`full_factorial.rs:60-79`). -/
def ffColumns (K : Type) [Field K] : List ℕ → ℕ → ℕ → List (List K)
  | [], _, _ => []
  | n :: ns, levelRepeat, rangeRepeat =>
    ffColumn K n (levelRepeat / n) rangeRepeat :: ffColumns K ns (levelRepeat / n) (rangeRepeat * n)

/-- `FullFactorial::normalized_sample` (`full_factorial.rs:43-81`), as a list of rows. -/
def fullFactorial (K : Type) [Field K] [LinearOrder K] (nx ns : ℕ) : Except Panic (List (List K)) := do
  let nums ← levelLoop K ns ns (List.replicate nx 1)
  let cols := ffColumns K nums nums.prod 1
  (List.range ns).mapM fun r =>
    cols.mapM fun c => match c[r]? with
      | some v => .ok v
      | none => .error .outOfBounds

/-- `SamplingMethod::sample` (`traits.rs:40-45`) on one row of a full factorial design; `bounds` are the rows
`[lower, upper]` of the sampling space. -/
def sampleRow {K : Type} [Field K] (bounds : List (K × K)) (row : List K) : List K :=
  List.zipWith (fun v b => v * (b.2 - b.1) + b.1) row bounds

end FullFactorial

end Verif.Doe
