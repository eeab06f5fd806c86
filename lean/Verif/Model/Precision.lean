import Verif.Model.SortAxis
import Mathlib.Data.List.OfFn

/-!
# Numbers read as `f64` through raw pointers (`gp/src/optimization.rs`, `gp/src/algorithm.rs`, `gp/src/sparse_algorithm.rs`)

Models are generic in the float type `F` (`f32` or `f64`). Where an `f64` is needed the code reads the memory of an `F` as
an `f64`: `*(v as *const F as *const f64)`.

Memory is modelled at the level of bytes: an allocation is a list of bytes at an aligned address. A read is undefined when
it is not inside the allocation or when its address is not a multiple of 8. (This is generous: Rust also forbids reading
outside of the referenced value.)
Modelled: the reads made by `optimize_params`, by the function which it minimizes, and by the gradients of sparse models.
Not modelled: what is computed from the values read.
-/

set_option autoImplicit false

namespace Verif.Precision

open SortAxis

abbrev Byte := Fin 256

/-- A float type: its size in memory, its bytes, its alignment is its size. -/
structure FloatMem (V : Type) where
  size : ℕ
  bytes : V → List Byte
  length_bytes : ∀ v, (bytes v).length = size

/-- `f64`: eight bytes which determine the value. -/
structure FloatMem64 (V : Type) extends FloatMem V where
  size_eq : size = 8
  ofBytes : List Byte → V
  ofBytes_bytes : ∀ v, ofBytes (bytes v) = v

variable {V W : Type}

/-- `*(p as *const f64)` at offset `off` of an allocation at address `addr`. -/
def read64 (r : FloatMem64 W) (addr : ℕ) (alloc : List Byte) (off : ℕ) : Except Fault W :=
  if alloc.length < off + 8 then .error .undefined
  else if (addr + off) % 8 ≠ 0 then .error .undefined
  else .ok (r.ofBytes ((alloc.drop off).take 8))

/-- The memory of a slice. -/
def memory (f : FloatMem V) (vs : List V) : List Byte := vs.flatMap f.bytes

/-- `into_f64(&vs[i])` (`optimization.rs:171-174`). -/
def intoF64 (f : FloatMem V) (r : FloatMem64 W) (addr : ℕ) (vs : List V) (i : ℕ) : Except Fault W :=
  read64 r addr (memory f vs) (i * f.size)

/-- `array.map(|v| into_f64(v))` (`optimization.rs:135, 91`). -/
def mapF64 (f : FloatMem V) (r : FloatMem64 W) (addr : ℕ) (vs : List V) : Except Fault (List W) :=
  (List.range vs.length).mapM (intoF64 f r addr vs)

/-- `bounds.iter().map(|(lo, up)| (into_f64(lo), into_f64(up)))` (`optimization.rs:137-140`, also 94-97): pairs are contiguous
in memory. -/
def boundsF64 (f : FloatMem V) (r : FloatMem64 W) (addr : ℕ) (bounds : List (V × V)) : Except Fault (List W) :=
  mapF64 f r addr (bounds.flatMap fun b => [b.1, b.2])

/-- A number in a local variable: `*(&v as *const F as *const f64)` (`algorithm.rs:894`, `sparse_algorithm.rs:305, 310,
325, 330, 553`). -/
def localF64 (f : FloatMem V) (r : FloatMem64 W) (addr : ℕ) (v : V) : Except Fault W := intoF64 f r addr [v] 0

/-- `ThetaTuning` (`gp/src/parameters.rs`), with the values and bounds of the optimized components. -/
inductive Tuning (V : Type)
  | fixed
  | tuned (param0 : List V) (bounds : List (V × V))

/-- What `fit` (`algorithm.rs:873-948`) passes to the optimizer: nothing when hyperparameters are fixed, otherwise for each
start `optimize_params` reads start and bounds (`optimization.rs:135-140`). Simplification: one start. -/
def optimizerInput (f : FloatMem V) (r : FloatMem64 W) (a₁ a₂ : ℕ) : Tuning V → Except Fault (Option (List W × List W))
  | .fixed => .ok none
  | .tuned p b => do
    let p' ← mapF64 f r a₁ p
    let b' ← boundsF64 f r a₂ b
    .ok (some (p', b'))

/-- The point given to the finite differences of the gradients of sparse models (`sparse_algorithm.rs:310, 330`). -/
def diffPoint (f : FloatMem V) (r : FloatMem64 W) (addr : ℕ) (x : List V) : Except Fault (List W) :=
  x.mapM (localF64 f r addr)

end Verif.Precision
