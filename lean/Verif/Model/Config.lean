import Verif.Model.FindResult
import Verif.Model.MixInt
import Verif.Model.Moe

/-!
# Configuration and Python interface

Model of the checks of `/repo/crates/ego/src/solver/egor_config.rs`, of the default tolerances of
`/repo/crates/ego/src/solver/egor_solver.rs` and of the parts of the Python interface which do not depend
on Python objects: `/repo/python/src/egor.rs`, `/repo/python/src/domain.rs`.
-/

set_option autoImplicit false

namespace Verif.Config

open Verif

/-! ## Configuration -/

/-- Fields of `ValidEgorConfig` read by `check` (`egor_config.rs:444-466`). -/
structure Cfg where
  nCstr : ℕ
  cstrTol : Option (List Flt)
  coego : Bool
  kplsDim : Option ℕ
deriving DecidableEq, Repr

/-- Reasons of `InvalidConfigError` (`egor_config.rs:451-463`). -/
inductive CfgError
  | tolLength
  | coegoKpls
deriving DecidableEq, Repr

/-- `cstr_tol.is_some() && cstr_tol.len() != n_cstr` (`egor_config.rs:448-449`). -/
def badLength (c : Cfg) : Bool :=
  match c.cstrTol with
  | none => false
  | some t => t.length != c.nCstr

/-- `EgorConfig::check` (`egor_config.rs:444-466`). -/
def check (c : Cfg) : Except CfgError Cfg :=
  if c.nCstr > 0 && badLength c then .error .tolLength
  else if c.coego && c.kplsDim.isSome then .error .coegoKpls
  else .ok c

/-- `DEFAULT_CSTR_TOL` (`egor_solver.rs:143`). -/
def defaultTol : Flt := .fin (1 / 10000)

/-- Tolerances of the state (`egor_solver.rs:269-272`); `nFcstr` is the number of columns of `c_data`,
which is the number of function constraints. -/
def initTol (c : Cfg) (nFcstr : ℕ) : List Flt :=
  c.cstrTol.getD (List.replicate (c.nCstr + nFcstr) defaultTol)

/-- Tolerances used by `suggest` (`solver_impl.rs:68-72`). -/
def suggestTol (c : Cfg) : List Flt :=
  c.cstrTol.getD (List.replicate c.nCstr defaultTol)

/-! ## Python optimizer -/

/-- Fields of the Python class `Egor` used here (`python/src/egor.rs:125-150`). -/
structure Py where
  nCstr : ℕ
  cstrTol : Option (List Flt)
  coegoNCoop : ℕ
  kplsDim : Option ℕ
deriving DecidableEq, Repr

/-- `Egor::cstr_tol` (`python/src/egor.rs:470-476`). -/
def Py.tol (p : Py) (nFcstr : ℕ) : List Flt :=
  p.cstrTol.getD (List.replicate (p.nCstr + nFcstr) defaultTol)

/-- The configuration made by `apply_config` (`python/src/egor.rs:502-562`): the tolerances are always
given. -/
def Py.config (p : Py) (nFcstr : ℕ) : Cfg where
  nCstr := p.nCstr
  cstrTol := some (p.tol nFcstr)
  coego := p.coegoNCoop != 0
  kplsDim := p.kplsDim

/-- Beginning of `minimize` (`python/src/egor.rs:302-308`) with `nFcstr` function constraints:
`min_within_mixint_space` calls `check` (`crates/ego/src/egor.rs:210`), then `.expect("Egor configured")`. -/
def Py.minimizeCfg (p : Py) (nFcstr : ℕ) : Except Panic Cfg :=
  match check (p.config nFcstr) with
  | .ok c => .ok c
  | .error _ => .error .other

/-- `Array2::zeros((n, 0))`. -/
def noCols (n : ℕ) : Mat Flt := ⟨0, List.replicate n []⟩

/-- `get_result_index` (`python/src/egor.rs:380-386`): the number of rows of `c_doe` is the number of
columns of `y_doe`. -/
def Py.resultIndex (p : Py) (y : Mat Flt) : Except Panic ℕ :=
  FindResult.findBest y (noCols y.ncols) (p.tol 0)

/-- `get_result` (`python/src/egor.rs:402-424`): the input and the outputs of the best evaluation. -/
def Py.result (p : Py) (x y : Mat Flt) : Except Panic (List Flt × List Flt) := do
  let i ← FindResult.findBest y (noCols y.ncols) (p.tol 0)
  match x.rows[i]?, y.rows[i]? with
  | some a, some b => .ok (a, b)
  | _, _ => .error .outOfBounds

/-! ## Names of mean and correlation models -/

/-- `Display` of the mean models (`mean_models.rs:133-137`): `"{}Mean"`. -/
def meanDisplay : Moe.MeanKind → String
  | .constant => "Constant" ++ "Mean"
  | .linear => "Linear" ++ "Mean"
  | .quadratic => "Quadratic" ++ "Mean"

/-- `From<..Mean> for String` (`mean_models.rs:139-143`). -/
def meanToString (k : Moe.MeanKind) : String := meanDisplay k

/-- `TryFrom<String>` of the type of the mean model `k` (`mean_models.rs:145-154`): the identifier is
pasted, then stringified. -/
def meanTryFrom (k : Moe.MeanKind) (s : String) : Option Moe.MeanKind :=
  match k with
  | .constant => if s = "ConstantMean" then some .constant else none
  | .linear => if s = "LinearMean" then some .linear else none
  | .quadratic => if s = "QuadraticMean" then some .quadratic else none

/-- `Display` of the correlation models (`correlation_models.rs:148-152, 240-244, 319-323, 490-494`). -/
def corrDisplay : Moe.CorrKind → String
  | .squaredExponential => "SquaredExponential"
  | .absoluteExponential => "AbsoluteExponential"
  | .matern32 => "Matern32"
  | .matern52 => "Matern52"

/-- `From<..Corr> for String` (`correlation_models.rs:70-74, 164-168, 256-260, 425-429`). -/
def corrToString : Moe.CorrKind → String
  | .squaredExponential => "SquaredExponential"
  | .absoluteExponential => "AbsoluteExponential"
  | .matern32 => "Matern32"
  | .matern52 => "Matern52"

/-- `TryFrom<String>` of the type of the correlation model `k`
(`correlation_models.rs:76-85, 170-179, 262-271, 431-440`). -/
def corrTryFrom (k : Moe.CorrKind) (s : String) : Option Moe.CorrKind :=
  match k with
  | .squaredExponential => if s = "SquaredExponential" then some .squaredExponential else none
  | .absoluteExponential => if s = "AbsoluteExponential" then some .absoluteExponential else none
  | .matern32 => if s = "Matern32" then some .matern32 else none
  | .matern52 => if s = "Matern52" then some .matern52 else none

/-- `RegressionSpec::from_bits` (`moe/src/types.rs:52-63`, crate `bitflags`): `None` when an unknown bit is set. -/
def regrFromBits (b : ℕ) : Option Moe.RegressionSpec :=
  if b / 8 = 0 then some ⟨b.testBit 0, b.testBit 1, b.testBit 2⟩ else none

/-- `CorrelationSpec::from_bits` (`moe/src/types.rs:77-91`, crate `bitflags`). -/
def corrFromBits (b : ℕ) : Option Moe.CorrelationSpec :=
  if b / 16 = 0 then some ⟨b.testBit 0, b.testBit 1, b.testBit 2, b.testBit 3⟩ else none

/-- Bits of the regression flags (`moe/src/types.rs:54-58`). -/
def regrBit : Moe.MeanKind → ℕ
  | .constant => 0x01
  | .linear => 0x02
  | .quadratic => 0x04

/-- Bits of the correlation flags (`moe/src/types.rs:79-85`). -/
def corrBit : Moe.CorrKind → ℕ
  | .squaredExponential => 0x01
  | .absoluteExponential => 0x02
  | .matern32 => 0x04
  | .matern52 => 0x08

/-! ## Python domain -/

section Domain

variable {K : Type} [Field K] [LinearOrder K] [IsStrictOrderedRing K] [FloorRing K]

/-- Python `XType` (`python/src/types.rs:119-124`). -/
inductive XKind
  | float
  | int
  | ord
  | enum
deriving DecidableEq, Repr

/-- `XSpec` (`python/src/types.rs:129-136`); only the number of tags matters. -/
structure XSpec (K : Type) where
  kind : XKind
  limits : List K
  tags : ℕ

/-- `Domain` (`python/src/domain.rs:6-10`): the first two variants only differ by the Python type; the
rows of an array have the same length, which is `ncols`. -/
inductive Domain (K : Type)
  | lists (rows : List (List K))
  | array (ncols : ℕ) (rows : List (List K))
  | specs (l : List (XSpec K))

/-- Truncation toward zero. -/
def trunc (v : K) : ℤ := if 0 ≤ v then ⌊v⌋ else -⌊-v⌋

/-- `v as i32` for a finite `f64`: truncation toward zero, then saturation. -/
def asI32 (v : K) : ℤ := max (-2147483648) (min 2147483647 (trunc v))

/-- `XType::Float(v[0], v[1])` (`domain.rs:52, 59, 68`). -/
def floatOf : List K → Except Panic (MixInt.XType K)
  | l :: u :: _ => .ok (.float l u)
  | _ => .error .outOfBounds

/-- `xtypes_from_xspecs` for one specification (`domain.rs:67-77`); `as usize` of a finite value
truncates and saturates at 0 (saturation at `usize::MAX` is not modelled). -/
def specOf (s : XSpec K) : Except Panic (MixInt.XType K) :=
  match s.kind with
  | .float => floatOf s.limits
  | .int =>
    match s.limits with
    | l :: u :: _ => .ok (.int (asI32 l) (asI32 u))
    | _ => .error .outOfBounds
  | .ord => .ok (.ord s.limits)
  | .enum =>
    if s.tags = 0 then
      match s.limits with
      | n :: _ => .ok (.enum (MixInt.asUsize n))
      | [] => .error .outOfBounds
    else .ok (.enum s.tags)

/-- `parse` (`domain.rs:33-47`) after the extraction from the Python object; `ndim` is never `None` for a
non empty domain. -/
def parse : Domain K → Except Panic (List (MixInt.XType K))
  | .lists rows => if rows = [] then .error .other else rows.mapM floatOf
  | .array ncols rows => if rows = [] ∨ ncols = 0 then .error .other else rows.mapM floatOf
  | .specs l => if l.length = 0 then .error .other else l.mapM specOf

end Domain

end Verif.Config
