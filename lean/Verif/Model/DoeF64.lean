import Verif.Model.Doe
import Verif.Model.F64

/-!
# Sampling methods in `f64`

The functions of `Model/Doe.lean` with the arithmetic of `f64` (`Model/F64.lean`).

`Array::linspace(a, b, n)` of crate `ndarray` 0.16 gives `a + step * i` with `step = (b - a) / (n - 1)`. Conversions of
indices to `f64` are exact below `2 ^ 53`. The selection of a design by the maximin kinds and the exchanges made by the
optimized kind depend on computed distances: any selection and any exchanges are allowed here.
-/

set_option autoImplicit false

namespace Verif.DoeF64

open Verif F64 Doe

variable {ns nx : ℕ}

/-- `normalized * (upper - lower) + lower` on one number (`traits.rs:40-45`). -/
noncomputable def scale (lower upper v : ℝ) : ℝ := add (mul v (sub upper lower)) lower

/-- `SamplingMethod::sample` (`traits.rs:40-45`). -/
noncomputable def sample (lower upper : Fin nx → ℝ) (x : Design ns nx) : Design ns nx :=
  fun i j => scale (lower j) (upper j) (x i j)

/-- `Array::linspace(0., 1., ns + 1)[i]` (`doe/src/lhs.rs:238, 261`). -/
noncomputable def cut (ns i : ℕ) : ℝ := add 0 (mul (div (sub 1 0) ns) i)

/-- `_classic_lhs` (`doe/src/lhs.rs:236-257`). -/
noncomputable def classic (d : Draw ns nx) : Design ns nx :=
  let rdpoints : Design ns nx := fun i j =>
    add (mul (d.rnd i j) (sub (cut ns (i + 1)) (cut ns i))) (cut ns i)
  fun i j => rdpoints (d.shuffle j i) j

/-- `_centered_lhs` (`doe/src/lhs.rs:259-274`). -/
noncomputable def centered (shuffle : ℕ → Equiv.Perm (Fin ns)) : Design ns nx :=
  fun i j => reshuffle (fun k => div (add (cut ns k) (cut ns (k + 1))) 2) shuffle j i

/-- Calls of `normalized_sample` (`doe/src/lhs.rs:72-86`): `pick` is the index of the design kept by a maximin kind
(`doe/src/lhs.rs:276-297`), `swaps` are the exchanges that lead from the first design to the returned one
(`doe/src/lhs.rs:120-185`). -/
inductive LhsCall (ns nx : ℕ)
  | classic (d : Draw ns nx)
  | centered (shuffle : ℕ → Equiv.Perm (Fin ns))
  | maximin (draws : List (Draw ns nx)) (pick : Fin draws.length)
  | centeredMaximin (draws : List (ℕ → Equiv.Perm (Fin ns))) (pick : Fin draws.length)
  | optimized (d : Draw ns nx) (swaps : List (Fin nx × Fin ns × Fin ns))

/-- `Lhs::normalized_sample` (`doe/src/lhs.rs:72-86`). -/
noncomputable def lhsSample : LhsCall ns nx → Design ns nx
  | .classic d => DoeF64.classic d
  | .centered sh => DoeF64.centered sh
  | .maximin ds k => DoeF64.classic ds[k]
  | .centeredMaximin ds k => DoeF64.centered ds[k]
  | .optimized d swaps => swaps.foldl (fun x s => swapCell x s.1 s.2.1 s.2.2) (DoeF64.classic d)

/-- The loop on the numbers of levels (`full_factorial.rs:47-54`). -/
noncomputable def levelLoop (ns : ℕ) : ℕ → List ℕ → Except Panic (List ℕ)
  | 0, nums => .ok nums
  | fuel + 1, nums =>
    if nums.prod < ns then do
      let w : List ℝ := nums.map fun (v : ℕ) => div v (nums.sum : ℕ)
      let diff : List ℝ := w.map fun v => sub (div 1 (nums.length : ℕ)) v
      let ind ← MixInt.argmax diff
      levelLoop ns fuel (bump nums ind)
    else .ok nums

/-- Value of level `i` of a factor with `n` levels (`full_factorial.rs:66-70`). -/
noncomputable def levelValue (n i : ℕ) : ℝ := if n > 1 then div i ((n - 1 : ℕ) : ℝ) else (i : ℝ)

/-- Column of a factor with `n` levels (`full_factorial.rs:62-78`). -/
noncomputable def ffColumn (n levelRepeat rangeRepeat : ℕ) : List ℝ :=
  let chunk := (List.range n).flatMap fun i => List.replicate levelRepeat (levelValue n i)
  (List.replicate rangeRepeat chunk).flatten

/-- Loop on the columns (`full_factorial.rs:60-79`). -/
noncomputable def ffColumns : List ℕ → ℕ → ℕ → List (List ℝ)
  | [], _, _ => []
  | n :: ns, levelRepeat, rangeRepeat =>
    ffColumn n (levelRepeat / n) rangeRepeat :: ffColumns ns (levelRepeat / n) (rangeRepeat * n)

/-- `FullFactorial::normalized_sample` (`full_factorial.rs:43-81`), as a list of rows. -/
noncomputable def fullFactorial (nx ns : ℕ) : Except Panic (List (List ℝ)) := do
  let nums ← levelLoop ns ns (List.replicate nx 1)
  let cols := ffColumns nums nums.prod 1
  (List.range ns).mapM fun r =>
    cols.mapM fun c => match c[r]? with
      | some v => .ok v
      | none => .error .outOfBounds

/-- `SamplingMethod::sample` (`traits.rs:40-45`) on one row; `bounds` are the rows `[lower, upper]`. -/
noncomputable def sampleRow (bounds : List (ℝ × ℝ)) (row : List ℝ) : List ℝ :=
  List.zipWith (fun v b => scale b.1 b.2 v) row bounds

end Verif.DoeF64
