import Verif.Model.Run
import Verif.Model.Moe
import Verif.Model.Coego

/-!
# Constraints of the optimization of the infill criterion

Model of `/repo/crates/ego/src/optimizers/optimizer.rs` (facade of the optimization libraries), of the constraints
which `optimize_infill_criterion` gives to it (`/repo/crates/ego/src/solver/solver_infill_optim.rs:148-204`) and of
their scaling factors (`solver_computations.rs:173-191`, `utils/misc.rs:10-28`). The libraries themselves are not
modelled: only the convention by which they tell the points which respect a constraint.
-/

set_option autoImplicit false

namespace Verif

/-- `a <= b` on `f64`. -/
def Flt.le (a b : Flt) : Bool := Flt.lt a b || Flt.feq a b

namespace Facade

open Verif Coego

variable {α : Type}

/-! ## Facade -/

/-- The libraries: `cobyla` and `slsqp` crates, `nlopt` (feature `nlopt`, both algorithms). -/
inductive Lib
  | cobyla
  | slsqp
  | nlopt
deriving DecidableEq

/-- Value given to the library for the value `f` of a constraint (`optimizer.rs:142-154, 188-200`); `nlopt` gets the
value itself, and the tolerance apart (`optimizer.rs:101-110`). -/
def handed : Lib → (f tol scale : Flt) → Flt
  | .cobyla, f, t, s => Flt.add (Flt.neg f) (Flt.div t s)
  | .slsqp, f, t, s => Flt.sub f (Flt.div t s)
  | .nlopt, f, _, _ => f

/-- Convention of the library on the value it got: `cobyla` wants it `≥ 0`, `slsqp` wants it `≤ 0`, `nlopt` wants it
below the tolerance. -/
def holds : Lib → (v tol scale : Flt) → Bool
  | .cobyla, v, _, _ => Flt.le .zero v
  | .slsqp, v, _, _ => Flt.le v .zero
  | .nlopt, v, t, s => Flt.le v (Flt.div t s)

/-- `Optimizer` (`optimizer.rs:21-32`), constraints only: `cons`, `user_data.scale_cstr`, `cstr_tol`. -/
structure Opt (α : Type) where
  cons : List (List α → Except Panic Flt)
  scale : Option (List Flt)
  tol : Option (List Flt)

/-- `Optimizer::new` (`optimizer.rs:35-54`): `cstr_tol` is `None`, and there is no method to set it. -/
def Opt.new (cons : List (List α → Except Panic Flt)) (scale : Option (List Flt)) : Opt α := ⟨cons, scale, none⟩

/-- `cstr_tol` of `minimize` (`optimizer.rs:123-126`). -/
def Opt.tols (o : Opt α) : List Flt := o.tol.getD (List.replicate o.cons.length .zero)

/-- `l[i]`. -/
def elemAt (l : List Flt) (i : ℕ) : Except Panic Flt :=
  match l[i]? with
  | none => .error .outOfBounds
  | some s => .ok s

/-- `scale_cstr.as_ref().expect("constraint scaling")[i]`. -/
def scaleAt (scale : Option (List Flt)) (i : ℕ) : Except Panic Flt :=
  match scale with
  | none => .error .other
  | some l => elemAt l i

/-- What the library concludes on the constraint `i` at `x` (`optimizer.rs:101-110, 142-154, 188-200`). -/
def judge (lib : Lib) (o : Opt α) (x : List α) (f : List α → Except Panic Flt) (i : ℕ) : Except Panic Bool := do
  let t ← elemAt o.tols i
  let s ← scaleAt o.scale i
  let v ← f x
  .ok (holds lib (handed lib v t s) t s)

/-- What the library concludes on the constraints `i`, `i + 1`, ... at `x`. -/
def judgeFrom (lib : Lib) (o : Opt α) (x : List α) (i : ℕ) :
    List (List α → Except Panic Flt) → Except Panic Bool
  | [] => .ok true
  | f :: fs => do
    let b ← judge lib o x f i
    let r ← judgeFrom lib o x (i + 1) fs
    .ok (b && r)

/-- The library takes `x` as a feasible point. -/
def accepts (lib : Lib) (o : Opt α) (x : List α) : Except Panic Bool := judgeFrom lib o x 0 o.cons

/-- End of `minimize` (`optimizer.rs:112-119, 169-172, 214-217`): value and point returned for what the library
returned. -/
def outcome (r : Except (List α) (List α × Flt)) : Flt × List α :=
  match r with
  | .ok (x, y) => (y, x)
  | .error x => (.pinf, x)

/-! ## Scaling factors -/

/-- `v.is_infinite()` is false. -/
def notInf : Flt → Bool
  | .pinf => false
  | .ninf => false
  | _ => true

/-- `compute_cstr_scales` for one surrogate, from its predictions at the scaling points
(`utils/misc.rs:16-25`). -/
def surrScale (preds : List Flt) : Flt :=
  match Moe.maxFlt ((preds.filter notInf).map Flt.abs) with
  | .ok m => m
  | .error _ => .fin 1

/-- Scale of a function constraint, from its values at the scaling points (`solver_computations.rs:184-188`). -/
def fcstrScale (vals : List Flt) : Except Panic Flt := Moe.maxFlt (vals.map Flt.abs)

/-! ## Constraints of the sub-problem -/

/-- The constraints of `optimize_infill_criterion`. Simplifications: continuous variables; the value of a surrogate
(mean or upper trust bound, `solver_computations.rs:196-257`, before the division by the scale) is a function of the
point. -/
structure SubPb (α : Type) where
  /-- `infill_data.xbest` -/
  xbest : List α
  active : List ℕ
  /-- `config.cstr_infill` -/
  cstrInfill : Bool
  surr : List (List α → Flt)
  fcstr : List (List α → Flt)
  /-- scales of the surrogates and of the function constraints (`compute_scaling`) -/
  surrScales : List Flt
  fcstrScales : List Flt
  /-- `cstr_tols` given by the user or by default -/
  cstrTols : List Flt

/-- `scale_cstr` of `infill_data` (`solver_impl.rs:704-714`). -/
def SubPb.allScales (p : SubPb α) : List Flt := p.surrScales ++ p.fcstrScales

/-- The constraint of the surrogate `i` (`solver_infill_optim.rs:154-194`). -/
def surrCall (p : SubPb α) (i : ℕ) (g : List α → Flt) (x : List α) : Except Panic Flt := do
  let xc ← setActive p.xbest p.active x
  let s ← scaleAt (some p.allScales) i
  .ok (Flt.div (g xc) s)

/-- The function constraint `i` (`solver_impl.rs:716-741`). -/
def fcstrCallAt (p : SubPb α) (i : ℕ) (g : List α → Flt) (x : List α) : Except Panic Flt := do
  let s ← elemAt p.fcstrScales i
  .ok (Flt.div (g x) s)

/-- `cstr_refs` (`solver_infill_optim.rs:148-204`). `cstr_tols` is not used. -/
def SubPb.cons (p : SubPb α) : List (List α → Except Panic Flt) :=
  (if p.cstrInfill then [] else p.surr.mapIdx (surrCall p)) ++ p.fcstr.mapIdx (fcstrCallAt p)

/-- The optimizer of `solver_infill_optim.rs:222`. -/
def SubPb.opt (p : SubPb α) : Opt α := Opt.new p.cons (some p.allScales)

end Facade

end Verif
