import Verif.Model.Gp
import Verif.Model.Flt

set_option autoImplicit false

/-!
# Files of trained models

`save` and `load` of mixtures (`moe/src/algorithm.rs`, `ego/src/gpmix/mixint.rs`), of single surrogates
(`moe/src/surrogates.rs`) and of the Python classes `Gpx` and `SparseGpx` (`python/src/gp_mix.rs`,
`python/src/sparse_gp_mix.rs`).

The formats are external (`serde_json`, `bincode`, `typetag`). What is used of them:
* JSON has no number for infinities and NaN: `serde_json` writes `null`, and does not read `null` as an `f64`;
* a number of a JSON file is read up to rounding (`float_roundtrip` is not enabled in `Cargo.toml:52`): `parse` is the
  number read from the decimal digits of a finite number;
* `bincode` writes the bits of numbers;
* a trait object is written with the tag of the trait, and is read back as an object of this trait only.
Anything else in an object (sizes, names, options) is of type `ρ` and is read back as written.
-/

namespace Verif.Save
open Verif

/-- `GpFileFormat` (`moe/src/types.rs`). -/
inductive Format
  | json
  | binary
deriving DecidableEq, Repr

/-- What is written for a number. -/
inductive Item
  | null
  | digits (v : ℝ)
  | bits (v : Option ℝ)

/-- Writing an `f64`; `none` is an infinity or NaN. -/
def toItem : Format → Option ℝ → Item
  | .json, some v => .digits v
  | .json, none => .null
  | .binary, v => .bits v

/-- Reading an `f64`; the result is `none` for an error. -/
def ofItem (parse : ℝ → ℝ) : Format → Item → Option (Option ℝ)
  | .json, .digits v => some (some (parse v))
  | .binary, .bits v => some v
  | _, _ => none

/-- How an object is written: by itself, as `dyn GpSurrogate` (tag `type_gp`, `moe/src/surrogates.rs:46`) or as
`dyn SgpSurrogate` (tag `type_sgp`, line 101). -/
inductive Tag
  | plain
  | gp
  | sgp
deriving DecidableEq, Repr

variable {ρ : Type}

/-- An object to write: its numbers, and the rest. -/
structure Stored (ρ : Type) where
  values : List (Option ℝ)
  rest : ρ

/-- Contents of a file. -/
structure File (ρ : Type) where
  format : Format
  tag : Tag
  items : List Item
  rest : ρ

/-- `serde_json::to_vec`, `bincode::serde::encode_to_vec`. -/
def encode (fmt : Format) (tag : Tag) (m : Stored ρ) : File ρ := ⟨fmt, tag, m.values.map (toItem fmt), m.rest⟩

/-- `serde_json::from_slice`, `bincode::serde::decode_from_slice`. -/
def decode (parse : ℝ → ℝ) (fmt : Format) (tag : Tag) (f : File ρ) : Option (Stored ρ) :=
  if f.format = fmt ∧ f.tag = tag then (f.items.mapM (ofItem parse fmt)).map fun v => ⟨v, f.rest⟩ else none

/-- Files by name, and the names that can be created (existing directory, permissions). -/
structure Disk (ρ : Type) where
  creatable : List Char → Bool
  file : List Char → Option (File ρ)

/-- The disk with the contents of one file replaced. -/
def Disk.put (d : Disk ρ) (path : List Char) (f : File ρ) : Disk ρ :=
  { d with file := fun p => if p = path then some f else d.file p }

/-- `save` (`moe/src/algorithm.rs:511-524`, `moe/src/surrogates.rs:181-193, 349-360`, `ego/src/gpmix/mixint.rs:624-635`):
`File::create(path).unwrap()` comes first. Failures of the encoder and of the write are not modelled. -/
def save (fmt : Format) (tag : Tag) (d : Disk ρ) (path : List Char) (m : Stored ρ) : Except Panic (Disk ρ) :=
  if d.creatable path = true then .ok (d.put path (encode fmt tag m)) else .error .other

/-- `load` (`moe/src/algorithm.rs:1096-1106`, `moe/src/surrogates.rs:426-441`); `none` is an error returned to the
caller. -/
def load (parse : ℝ → ℝ) (fmt : Format) (tag : Tag) (d : Disk ρ) (path : List Char) : Option (Stored ρ) :=
  (d.file path).bind (decode parse fmt tag)

/-! ## Single surrogates -/

/-- The trait of the object written by `save` of a surrogate (`moe/src/surrogates.rs:184, 187` and `352, 355`). -/
def saveTag (sparse : Bool) : Tag := if sparse then .sgp else .gp

/-- The trait of the object read by the function `load` (`moe/src/surrogates.rs:430, 434`). -/
def loadTag : Tag := .gp

/-! ## Python -/

/-- `Path::new(filename).extension()` of the standard library, for a name without directory: what follows the last dot,
unless there is nothing before it. -/
def extension (name : List Char) : Option (List Char) :=
  let before := (name.reverse.dropWhile (· ≠ '.')).drop 1
  if name = ['.', '.'] ∨ before = [] then none else some (name.reverse.takeWhile (· ≠ '.')).reverse

/-- The format for a name (`python/src/gp_mix.rs:311-314, 326-329`, `python/src/sparse_gp_mix.rs:290-293, 305-308`): no
extension panics. -/
def formatOf (name : List Char) : Except Panic Format :=
  match extension name with
  | none => .error .other
  | some e => .ok (if e = ['j', 's', 'o', 'n'] then .json else .binary)

/-- `Gpx.save`, `SparseGpx.save` (`python/src/gp_mix.rs:310-316`, `python/src/sparse_gp_mix.rs:289-295`): the value
returned and the disk. -/
def pySave (d : Disk ρ) (name : List Char) (m : Stored ρ) : Except Panic (Bool × Disk ρ) :=
  formatOf name >>= fun fmt => save fmt .plain d name m >>= fun d' => .ok (true, d')

/-- `Result::unwrap`. -/
def unwrap {α : Type} : Option α → Except Panic α
  | some m => .ok m
  | none => .error .other

/-- `Gpx.load`, `SparseGpx.load` (`python/src/gp_mix.rs:325-331`, `python/src/sparse_gp_mix.rs:304-310`): `unwrap` of the
result. -/
def pyLoad (parse : ℝ → ℝ) (d : Disk ρ) (name : List Char) : Except Panic (Stored ρ) :=
  formatOf name >>= fun fmt => unwrap (load parse fmt .plain d name)

/-! ## Trained Gaussian processes -/

section
variable {n d h : ℕ}

/-- The field `likelihood` (`gp/src/algorithm.rs:1040-1041`): `log10` of a zero variance is infinite. -/
noncomputable def likelihoodValue (g : Gp.Model n d h) : Option ℝ :=
  if g.inner.sigma2 = 0 then none else some g.likelihood

/-- The numbers of `GaussianProcess` (`gp/src/algorithm.rs:174-192`); those of the training set and of the parameters
kept for the user are given. -/
noncomputable def gpValues (g : Gp.Model n d h) (kept : List ℝ) : List (Option ℝ) :=
  (List.ofFn g.theta).map some ++ likelihoodValue g ::
    ([g.inner.sigma2] ++ List.ofFn (fun a => g.inner.beta a 0) ++ List.ofFn (fun i => g.inner.gamma i 0) ++
      (List.ofFn fun i => List.ofFn fun j => g.inner.rChol i j).flatten ++
      (List.ofFn fun i => List.ofFn fun a => g.inner.ft i a).flatten ++
      (List.ofFn fun a => List.ofFn fun b => g.inner.ftQrR a b).flatten ++
      (List.ofFn fun j => List.ofFn fun l => g.w j l).flatten ++
      (List.ofFn fun i => List.ofFn fun j => g.xtData i j).flatten ++ List.ofFn g.xtMean ++ List.ofFn g.xtStd ++
      List.ofFn g.ytData ++ [g.ytMean, g.ytStd] ++ kept).map some

/-- The numbers of a mixture of such experts, each trained on its own points (`moe/src/algorithm.rs:430-444`): those of
the experts, and others. -/
noncomputable def mixtureValues (experts : List ((n : ℕ) × Gp.Model n d h)) (kept : List (List ℝ)) (others : List ℝ) :
    List (Option ℝ) :=
  (experts.zipWith (fun g k => gpValues g.2 k) kept).flatten ++ others.map some

end
end Verif.Save
