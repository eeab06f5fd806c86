import Verif.Model.Flt
import Mathlib.Algebra.Order.Field.Basic
import Mathlib.Algebra.Order.Floor.Ring

/-!
# Mixed-integer variables

Model of `/repo/crates/ego/src/gpmix/mixint.rs:38-226` and `/repo/crates/ego/src/types.rs` (`XType`).
Every function of the Rust code works on matrices row by row; the model works on one row. Numbers are in
an arbitrary ordered field with a floor function (exact arithmetic, no NaN).
-/

set_option autoImplicit false

namespace Verif.MixInt

open Verif

/-- `XType` (`types.rs`). -/
inductive XType (K : Type)
  | float (lower upper : K)
  | int (lower upper : ℤ)
  | ord (values : List K)
  | enum (size : ℕ)
deriving Repr

variable {K : Type} [Field K] [LinearOrder K] [IsStrictOrderedRing K] [FloorRing K]

/-- Loop of `ndarray_stats` `argmax`: first index of the maximum. -/
def argmaxLoop (cur : K) (ci i : ℕ) : List K → ℕ
  | [] => ci
  | e :: es => if cur < e then argmaxLoop e i (i + 1) es else argmaxLoop cur ci (i + 1) es

/-- `row.argmax().unwrap()`: panics on an empty row. -/
def argmax : List K → Except Panic ℕ
  | [] => .error .emptyReduction
  | e :: es => .ok (argmaxLoop e 0 0 (e :: es))

/-- Loop of `ndarray_stats` `argmin`: first index of the minimum. -/
def argminLoop (cur : K) (ci i : ℕ) : List K → ℕ
  | [] => ci
  | e :: es => if e < cur then argminLoop e i (i + 1) es else argminLoop cur ci (i + 1) es

/-- `argmin().unwrap()`: panics on an empty array. -/
def argmin : List K → Except Panic ℕ
  | [] => .error .emptyReduction
  | e :: es => .ok (argminLoop e 0 0 (e :: es))

/-- `f64::round`: half away from zero. -/
def roundHalfAway (v : K) : ℤ := if 0 ≤ v then ⌊v + 1 / 2⌋ else -⌊-v + 1 / 2⌋

/-- `v as usize` for a finite `f64`: truncation, negative values saturate to 0. -/
def asUsize (v : K) : ℕ := ⌊v⌋.toNat

/-- `take_closest` (`mixint.rs:156-162`). -/
def takeClosest (vs : List K) (v : K) : Except Panic K := do
  let i ← argmin (vs.map fun r => |v - r|)
  match vs[i]? with
  | some r => .ok r
  | none => .error .outOfBounds

/-- A zero array of length `n` with a one at index `k` (`mixint.rs:130-136, 194-196`). -/
def oneHot (n k : ℕ) : List K := (List.range n).map fun i => if i = k then 1 else 0

/-- `cast_to_discrete_values_mut` (`mixint.rs:167-201`) on one row. The list argument is the part of the
row starting at column `xcol`. `Float` variables do not access the row. Columns beyond those of `xtypes`
are left unchanged. -/
def castRow : List (XType K) → List K → Except Panic (List K)
  | [], xs => .ok xs
  | .float _ _ :: ts, [] => castRow ts []
  | .float _ _ :: ts, x :: xs => do
    let r ← castRow ts xs
    .ok (x :: r)
  | .int _ _ :: _, [] => .error .outOfBounds
  | .int _ _ :: ts, x :: xs => do
    let r ← castRow ts xs
    .ok ((roundHalfAway x : K) :: r)
  | .ord _ :: _, [] => .error .outOfBounds
  | .ord vs :: ts, x :: xs => do
    let c ← takeClosest vs x
    let r ← castRow ts xs
    .ok (c :: r)
  | .enum v :: ts, xs =>
    if v ≤ xs.length then do
      let m ← argmax (xs.take v)
      let r ← castRow ts (xs.drop v)
      .ok (oneHot v m ++ r)
    else .error .outOfBounds

/-- `fold_with_enum_index` (`mixint.rs:77-96`) on one row. `j` is the index in `xtypes`, `u` the
`unfold_index`. The code slices categorical blocks at `j..j+v` (and not at `u..u+v`). -/
def foldFrom (x : List K) (j u : ℕ) : List (XType K) → Except Panic (List K)
  | [] => .ok []
  | .enum v :: ts =>
    if j + v ≤ x.length then do
      let m ← argmax ((x.drop j).take v)
      let r ← foldFrom x (j + 1) (u + v) ts
      .ok ((m : K) :: r)
    else .error .outOfBounds
  | _ :: ts =>
    match x[u]? with
    | none => .error .outOfBounds
    | some a => do
      let r ← foldFrom x (j + 1) (u + 1) ts
      .ok (a :: r)

/-- `fold_with_enum_index` (`mixint.rs:77-96`). -/
def fold (ts : List (XType K)) (x : List K) : Except Panic (List K) := foldFrom x 0 0 ts

/-- Width of a relaxed variable (`mixint.rs:102-105`). -/
def width : XType K → ℕ
  | .enum v => v
  | _ => 1

/-- `compute_continuous_dim` (`mixint.rs:99-108`): panics on an empty list of types. -/
def continuousDim (ts : List (XType K)) : Except Panic ℕ :=
  match ts with
  | [] => .error .emptyReduction
  | _ => .ok (ts.map width).sum

/-- Loop of `unfold_with_enum_mask` (`mixint.rs:120-143`) on one row. `i` is the index in `xtypes`, `u` the
`unfold_index`. The code reads non categorical columns at `u` (and not at `i`). -/
def unfoldFrom (x : List K) (i u : ℕ) : List (XType K) → Except Panic (List K)
  | [] => .ok []
  | .enum v :: ts =>
    match x[i]? with
    | none => .error .outOfBounds
    | some a =>
      if asUsize a < v then do
        let r ← unfoldFrom x (i + 1) (u + v) ts
        .ok (oneHot v (asUsize a) ++ r)
      else .error .outOfBounds
  | _ :: ts =>
    match x[u]? with
    | none => .error .outOfBounds
    | some a => do
      let r ← unfoldFrom x (i + 1) (u + 1) ts
      .ok (a :: r)

/-- `unfold_with_enum_mask` = `to_continuous_space` (`mixint.rs:116-153`). -/
def toContinuousSpace (ts : List (XType K)) (x : List K) : Except Panic (List K) := do
  let _ ← continuousDim ts
  unfoldFrom x 0 0 ts

/-- `to_discrete_space` (`mixint.rs:220-226`). -/
def toDiscreteSpace (ts : List (XType K)) (x : List K) : Except Panic (List K) := do
  let x ← castRow ts x
  fold ts x

/-- `as_continuous_limits` (`mixint.rs:38-67`). Simplification: the limits `[+inf, -inf]` given by the code
to an `Ord` variable without value are an error in the model. -/
def continuousLimits : List (XType K) → Except Panic (List (K × K))
  | [] => .ok []
  | .float l u :: ts => do
    let r ← continuousLimits ts
    .ok ((l, u) :: r)
  | .int l u :: ts => do
    let r ← continuousLimits ts
    .ok (((l : K), (u : K)) :: r)
  | .ord [] :: _ => .error .other
  | .ord (v :: vs) :: ts => do
    let r ← continuousLimits ts
    .ok ((vs.foldl min v, vs.foldl max v) :: r)
  | .enum v :: ts => do
    let r ← continuousLimits ts
    .ok (List.replicate v (0, 1) ++ r)

/-- `MixintSampling::sample` (`mixint.rs:278-286`) on one row of the continuous sample. -/
def mixintSampleRow (ts : List (XType K)) (folded : Bool) (x : List K) : Except Panic (List K) := do
  let d ← castRow ts x
  if folded then fold ts d else .ok d

end Verif.MixInt
