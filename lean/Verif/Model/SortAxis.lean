import Mathlib.Data.List.Basic
import Mathlib.Data.Fintype.Basic
import Mathlib.Data.Int.Order.Basic

/-!
# Sorting and permuting along an axis (`ego/src/utils/sort_axis.rs`)

The elements of an array are in one allocation. A pointer is an offset in this allocation, an integer. What the
language leaves undefined (a read outside the allocation, use of a cell that was never written) is a fault.

Modelled: `Permutation::correct`, `from_indices`, `identity`, `sort_axis_by`, `permute_axis` for any number of axes and
any memory layout (an element is given by its index on the permuted axis and by the index of its cell on the other axes).
Not modelled: strides of the result (its cells are addressed by their logical index), zero-sized types.
-/

set_option autoImplicit false

namespace Verif.SortAxis

variable {α : Type}

/-- What can go wrong. -/
inductive Fault
  | panic
  | undefined
  deriving DecidableEq, Repr

/-- `seen.get_mut(i)` then the test of the cell (`sort_axis.rs:31-41`). -/
def step (seen : List Bool) (i : ℕ) : Option (List Bool) :=
  match seen[i]? with
  | none => none
  | some true => none
  | some false => some (seen.set i true)

/-- The loop of `correct`. -/
def loop (seen : List Bool) : List ℕ → Bool
  | [] => true
  | i :: rest =>
    match step seen i with
    | none => false
    | some s => loop s rest

/-- `Permutation::correct` (`sort_axis.rs:28-44`). -/
def correct (indices : List ℕ) : Bool := loop (List.replicate indices.length false) indices

/-- `Permutation::from_indices` (`sort_axis.rs:23-26`). -/
def fromIndices (v : List ℕ) : Option (List ℕ) := if correct v then some v else none

/-- `identity` (`sort_axis.rs:69-73`). -/
def identity (axisLen : ℕ) : List ℕ := List.range axisLen

/-- The comparison passed to `sort_by` (`sort_axis.rs:80-88`), from the strict order given by the caller. -/
def compareBy (lessThan : ℕ → ℕ → Bool) (a b : ℕ) : Ordering :=
  if lessThan a b then .lt else if lessThan b a then .gt else .eq

/-- `sort_axis_by` (`sort_axis.rs:75-90`): `sort_by` is a stable sort. Simplification: `List.mergeSort`, which agrees with
any stable sort when the comparison is consistent; with an inconsistent one `sort_by` may panic. -/
def sortAxisBy (axisLen : ℕ) (lessThan : ℕ → ℕ → Bool) : List ℕ :=
  (identity axisLen).mergeSort fun a b => compareBy lessThan a b != .gt

/-- An array: its allocation, the offset of its first element, length and stride of the permuted axis, and for each
position on the other axes (in logical order) its offset. -/
structure Arr (α : Type) where
  buf : List α
  base : ℤ
  axisLen : ℕ
  axisStride : ℤ
  others : List ℤ

/-- Where element `(i, j)` is. -/
def Arr.addr (a : Arr α) (i : ℕ) (o : ℤ) : ℤ := a.base + a.axisStride * i + o

/-- A read through a pointer. -/
def Arr.read (a : Arr α) (p : ℤ) : Except Fault α :=
  if 0 ≤ p then
    match a.buf[p.toNat]? with
    | some v => .ok v
    | none => .error .undefined
  else .error .undefined

/-- `self.index_axis(axis, i)`, safe access. -/
def Arr.pane (a : Arr α) (i : ℕ) : Except Fault (List α) := a.others.mapM fun o => a.read (a.addr i o)

/-- The array as the list of its panes along the axis. -/
def Arr.panes (a : Arr α) : Except Fault (List (List α)) := (List.range a.axisLen).mapM a.pane

/-- A pane of the result once written (`sort_axis.rs:149-155`): `source_0` is the pane 0 of the source, its cell shifted by
`axis_stride * perm_i` is read. -/
def Arr.copyPane (a : Arr α) (permI : ℕ) : Except Fault (List α) :=
  a.others.mapM fun o => a.read (a.addr 0 o + a.axisStride * permI)

/-- The offsets read by the copy, in order. -/
def Arr.moved (a : Arr α) (perm : List ℕ) : List ℤ :=
  perm.flatMap fun (permI : ℕ) => a.others.map fun o => a.addr 0 o + a.axisStride * permI

/-- `permute_axis` (`sort_axis.rs:100-162`): the panes of the result. `debug` tells if assertions are compiled. The result
has one pane for each index, each completely written, so that nothing is left uninitialized; `moved` is the ownership
taken from the source. -/
def Arr.permuteAxis (debug : Bool) (a : Arr α) (perm : List ℕ) : Except Fault (List (List α)) :=
  if a.axisLen ≠ perm.length then .error .panic
  else if debug && !correct perm then .error .panic
  else if a.axisLen = 0 ∨ a.others = [] then a.panes
  else perm.mapM a.copyPane

end Verif.SortAxis
