import Verif.Model.Flt
import Mathlib.Analysis.SpecialFunctions.Gaussian.GaussianIntegral
import Mathlib.Analysis.SpecialFunctions.Log.Basic

/-!
# Infill criteria, probability of feasibility, constraints given to the internal optimizer

Model over `ℝ` (exact arithmetic) of `/repo/crates/ego/src/criteria/ei.rs`, `criteria/wb2.rs`,
`utils/misc.rs:31-38`, `utils/logei_helper.rs`, `utils/cstr_pof.rs` and
`solver/solver_computations.rs:196-257, 297-475`.

Simplifications: real arithmetic in place of `f64` (the constants `SQRT_2PI`, `LOG_2PI_OVER_2`, … are
the exact numbers); `libm::erfc` is the mathematical function; a point is a function `Fin d → ℝ`
(so that the reshapes to one-row matrices cannot fail); an `Err` of a prediction is `none`.
-/

set_option autoImplicit false

namespace Verif.Criteria

open Verif Real

variable {d : ℕ}

/-- A point (`x: &[f64]`). -/
abbrev Pt (d : ℕ) := Fin d → ℝ

/-- `f64::EPSILON`. -/
noncomputable def eps : ℝ := 2⁻¹ ^ 52

/-- `f64::MIN`. -/
noncomputable def fmin64 : ℝ := -(2 ^ 1024 - 2 ^ 971)

/-- `libm::erfc`. -/
noncomputable def erfc (x : ℝ) : ℝ := 2 / √π * ∫ t in Set.Ioi x, rexp (-t ^ 2)

/-- `norm_cdf` (`utils/misc.rs:31-33`). -/
noncomputable def normCdf (x : ℝ) : ℝ := 0.5 * erfc (-x / √2)

/-- `norm_pdf` (`utils/misc.rs:36-38`). -/
noncomputable def normPdf (x : ℝ) : ℝ := rexp (-0.5 * x * x) / √(2 * π)

/-- What the criteria use of a surrogate (`MixtureGpSurrogate`, `moe/src/surrogates.rs`) at one point:
`predict`, `predict_gradients`, `predict_valvar`, `predict_valvar_gradients`. -/
structure Surrogate (d : ℕ) where
  predict : Pt d → Option ℝ
  predictGrad : Pt d → Option (Pt d)
  valvar : Pt d → Option (ℝ × ℝ)
  valvarGrad : Pt d → Option (Pt d × Pt d)

/-- `Result::unwrap` on a prediction. -/
def unwrap {α : Type} : Option α → Except Panic α
  | some a => .ok a
  | none => .error .other

/-! ## Expected improvement -/

/-- The value once prediction and variance are known (`ei.rs:33-43`). -/
noncomputable def eiAt (fmin k pred var : ℝ) : ℝ :=
  if var < eps then 0
  else
    let sigma := k * √var
    let args0 := (fmin - pred) / sigma
    sigma * (args0 * normCdf args0 + normPdf args0)

/-- `ExpectedImprovement::value` (`ei.rs:22-47`). -/
noncomputable def eiValue (x : Pt d) (s : Surrogate d) (fmin : ℝ) (sigmaWeight : Option ℝ) : ℝ :=
  match s.valvar x with
  | some (pred, var) => eiAt fmin (sigmaWeight.getD 1) pred var
  | none => 0

/-- The gradient once everything is predicted (`ei.rs:65-83`). -/
noncomputable def eiGradAt (fmin k pred var : ℝ) (yPrime varPrime : Pt d) : Pt d := fun j =>
  let diffY := fmin - pred
  let sigma := √var
  let arg := (fmin - pred) / (k * sigma)
  let sigPrime := k * varPrime j / (2 * sigma)
  let argPrime := yPrime j / (-k * sigma) - diffY * (sigPrime / (k * sigma * k * sigma))
  let factor := k * sigma * (-arg / √(2 * π)) * rexp (-(arg * arg) / 2)
  yPrime j * (-normCdf arg) + diffY * normPdf arg * argPrime + sigPrime * normPdf arg + factor * argPrime

/-- `ExpectedImprovement::grad` (`ei.rs:51-88`). -/
noncomputable def eiGrad (x : Pt d) (s : Surrogate d) (fmin : ℝ) (sigmaWeight : Option ℝ) :
    Except Panic (Pt d) :=
  match s.valvar x with
  | some (pred, var) =>
    if var < eps then .ok 0
    else (unwrap (s.valvarGrad x)).map fun g => eiGradAt fmin (sigmaWeight.getD 1) pred var g.1 g.2
  | none => .ok 0

/-! ## Log expected improvement -/

/-- `erfcx` (`logei_helper.rs:9-11`). -/
noncomputable def erfcx (u : ℝ) : ℝ := rexp (u * u) * erfc u

/-- `log1mexp` (`logei_helper.rs:13-20`); `expm1` and `log1p` are exact. -/
noncomputable def log1mexp (x : ℝ) : ℝ :=
  if x > -log 2 then log (-(rexp x - 1)) else log (1 + -rexp x)

/-- `log_ei_helper` (`logei_helper.rs:22-37`). -/
noncomputable def logEiHelper (u : ℝ) : ℝ :=
  if u > -1 then log (normPdf u + u * normCdf u)
  else
    let logPhi := -0.5 * u * u - log (2 * π) / 2
    let logTerm :=
      if u > -10 ^ 6 then log1mexp (log (erfcx (-(1 / √2) * u) * |u|) + log (π / 2) / 2)
      else -2 * log |u|
    logPhi + logTerm

/-- `log1mexp_prime` (`logei_helper.rs:39-42`). -/
noncomputable def log1mexpPrime (w : ℝ) : ℝ := -rexp w / (1 - rexp w)

/-- `w_and_w_prime`, `log1mexp_w_derivative` (`logei_helper.rs:44-57`). -/
noncomputable def log1mexpWDerivative (u : ℝ) : ℝ :=
  let z := -(1 / √2) * u
  let valErfcx := erfcx z
  let erfcxPrime := 2 * z * valErfcx - 2 / √π
  let w := log (valErfcx * |u|) + log (π / 2) / 2
  let wPrime := erfcxPrime * -(1 / √2) / valErfcx + 1 / u
  log1mexpPrime w * wPrime

/-- `d_log_ei_helper` (`logei_helper.rs:59-75`). -/
noncomputable def dLogEiHelper (u : ℝ) : ℝ :=
  if u > -1 then normCdf u / rexp (logEiHelper u)
  else -u + (if u > -10 ^ 6 then log1mexpWDerivative u else -2 / u)

/-- The value once prediction and variance are known (`ei.rs:118-125`). -/
noncomputable def logEiAt (fmin pred var : ℝ) : ℝ :=
  if var < eps then fmin64
  else
    let sigma := √var
    logEiHelper ((fmin - pred) / sigma) + log sigma

/-- `LogExpectedImprovement::value` (`ei.rs:106-129`); it ignores `sigma_weight`. -/
noncomputable def logEiValue (x : Pt d) (s : Surrogate d) (fmin : ℝ) : ℝ :=
  match s.valvar x with
  | some (pred, var) => logEiAt fmin pred var
  | none => fmin64

/-- The gradient once everything is predicted (`ei.rs:148-165`). -/
noncomputable def logEiGradAt (fmin pred var : ℝ) (yPrime varPrime : Pt d) : Pt d := fun j =>
  let diffY := fmin - pred
  let sigma := √var
  let arg := diffY / sigma
  let sigPrime := varPrime j / (2 * sigma)
  let argPrime := yPrime j / (-sigma) - diffY * (sigPrime / (sigma * sigma))
  dLogEiHelper arg * argPrime + sigPrime / sigma

/-- `LogExpectedImprovement::grad` (`ei.rs:133-170`). -/
noncomputable def logEiGrad (x : Pt d) (s : Surrogate d) (fmin : ℝ) : Except Panic (Pt d) :=
  match s.valvar x with
  | some (pred, var) =>
    if var < eps then .ok fun _ => fmin64
    else (unwrap (s.valvarGrad x)).map fun g => logEiGradAt fmin pred var g.1 g.2
  | none => .ok fun _ => fmin64

/-! ## WB2 and WB2S -/

/-- The criteria of the library (`criteria/mod.rs`): `EI`, `LOG_EI`, `WB2Criterion(c)`
(`WB2 = WB2Criterion(Some(1.))`, `WB2S = WB2Criterion(None)`, `wb2.rs:90-93`). -/
inductive Crit where
  | ei
  | logEi
  | wb2 (c : Option ℝ)

/-- `scale.unwrap_or(self.0.unwrap_or(1.0))` (`wb2.rs:29, 45`). -/
noncomputable def wb2Scale (c scale : Option ℝ) : ℝ := scale.getD (c.getD 1)

/-- `InfillCriterion::value` (`ei.rs:22-47, 106-129`, `wb2.rs:21-33`). -/
noncomputable def Crit.value (c : Crit) (x : Pt d) (s : Surrogate d) (fmin : ℝ)
    (sigmaWeight scale : Option ℝ) : Except Panic ℝ :=
  match c with
  | .ei => .ok (eiValue x s fmin sigmaWeight)
  | .logEi => .ok (logEiValue x s fmin)
  | .wb2 c => (unwrap (s.predict x)).map fun p => wb2Scale c scale * eiValue x s fmin sigmaWeight - p

/-- `InfillCriterion::grad` (`ei.rs:51-88, 133-170`, `wb2.rs:37-49`). -/
noncomputable def Crit.grad (c : Crit) (x : Pt d) (s : Surrogate d) (fmin : ℝ)
    (sigmaWeight scale : Option ℝ) : Except Panic (Pt d) :=
  match c with
  | .ei => eiGrad x s fmin sigmaWeight
  | .logEi => logEiGrad x s fmin
  | .wb2 c =>
    eiGrad x s fmin sigmaWeight >>= fun g =>
      (unwrap (s.predictGrad x)).map fun p => fun j => g j * wb2Scale c scale - p j

/-- `ei_x.argmax().unwrap()`: index and value of the first largest value, panics on an empty sample. -/
noncomputable def argmax : List (Pt d × ℝ) → Except Panic (Pt d × ℝ)
  | [] => .error .emptyReduction
  | a :: l => .ok (l.foldl (fun m b => if m.2 < b.2 then b else m) a)

/-- `compute_wb2s_scale` (`wb2.rs:67-88`). -/
noncomputable def wb2sScale (xs : List (Pt d)) (s : Surrogate d) (fmin : ℝ) (sigmaWeight : Option ℝ) :
    Except Panic ℝ :=
  argmax (xs.map fun x => (x, eiValue x s fmin sigmaWeight)) >>= fun best =>
    (unwrap (s.predict best.1)).map fun pred =>
      if |best.2| > 100 * eps then 100 * |pred| / best.2 else 1

/-! ## Probability of feasibility -/

/-- The value once prediction and variance are known (`cstr_pof.rs:13-21`). -/
noncomputable def pofAt (tol pred var : ℝ) : ℝ :=
  if var < eps then 0 else normCdf ((tol - pred) / √var)

/-- `pof` (`cstr_pof.rs:9-24`). -/
noncomputable def pof (x : Pt d) (s : Surrogate d) (tol : ℝ) : ℝ :=
  match s.valvar x with
  | some (pred, var) => pofAt tol pred var
  | none => 0

/-- The gradient once everything is predicted (`cstr_pof.rs:35-45`). -/
noncomputable def pofGradAt (tol pred var : ℝ) (yPrime varPrime : Pt d) : Pt d := fun j =>
  let sigma := √var
  let arg := (tol - pred) / sigma
  let sigPrime := varPrime j / (2 * sigma)
  let argPrime := yPrime j / (-sigma) + sigPrime * pred / (sigma * sigma)
  normPdf arg * argPrime

/-- `pof_grad` (`cstr_pof.rs:28-49`). -/
noncomputable def pofGrad (x : Pt d) (s : Surrogate d) (tol : ℝ) : Except Panic (Pt d) :=
  match s.valvar x with
  | some (pred, var) =>
    if var < eps then .ok 0
    else (unwrap (s.valvarGrad x)).map fun g => pofGradAt tol pred var g.1 g.2
  | none => .ok 0

/-- `pofs` (`cstr_pof.rs:51-60`); `zip` stops with the shortest list. -/
noncomputable def pofs (x : Pt d) (ms : List (Surrogate d)) (tols : List ℝ) : ℝ :=
  ((ms.zip tols).map fun m => pof x m.1 m.2).foldl (· * ·) 1

/-- `logpofs` (`cstr_pof.rs:62-71`). -/
noncomputable def logpofs (x : Pt d) (ms : List (Surrogate d)) (tols : List ℝ) : ℝ :=
  ((ms.zip tols).map fun m => log (max (pof x m.1 m.2) eps)).foldl (· + ·) 0

/-- `pof_others_product` (`cstr_pof.rs:92-96`). -/
noncomputable def othersProduct (vals : List ℝ) (i : ℕ) : ℝ :=
  ((vals.zipIdx.filter fun p => p.2 ≠ i).map Prod.fst).foldl (· * ·) 1

/-- `pofs_grad` (`cstr_pof.rs:73-101`). -/
noncomputable def pofsGrad (x : Pt d) (ms : List (Surrogate d)) (tols : List ℝ) : Except Panic (Pt d) :=
  ((ms.zip tols).mapM fun m => pofGrad x m.1 m.2).map fun grads =>
    grads.zipIdx.foldl (fun acc g => fun j =>
      acc j + g.1 j * othersProduct ((ms.zip tols).map fun m => pof x m.1 m.2) g.2) 0

/-- `logpof_grad` (`cstr_pof.rs:103-107`). -/
noncomputable def logpofGrad (x : Pt d) (s : Surrogate d) (tol : ℝ) : Except Panic (Pt d) :=
  (pofGrad x s tol).map fun g => fun j => g j / max (pof x s tol) eps

/-- `logpofs_grad` (`cstr_pof.rs:109-118`). -/
noncomputable def logpofsGrad (x : Pt d) (ms : List (Surrogate d)) (tols : List ℝ) : Except Panic (Pt d) :=
  ((ms.zip tols).mapM fun m => logpofGrad x m.1 m.2).map fun grads =>
    grads.foldl (fun acc g => fun j => acc j + g j) 0

/-! ## Objective and constraints of the internal optimization -/

/-- `eval_infill_obj` (`solver_computations.rs:356-374`). -/
noncomputable def evalInfillObj (c : Crit) (x : Pt d) (s : Surrogate d) (fmin scale scaleIc sigmaWeight : ℝ) :
    Except Panic ℝ :=
  (c.value x s fmin (some sigmaWeight) (some scaleIc)).map fun v => -v / scale

/-- `eval_grad_infill_obj` (`solver_computations.rs:378-393`): the weight of the standard deviation is
not passed. -/
noncomputable def evalGradInfillObj (c : Crit) (x : Pt d) (s : Surrogate d) (fmin scale scaleIc : ℝ) :
    Except Panic (Pt d) :=
  (c.grad x s fmin none (some scaleIc)).map fun g => fun j => -g j / scale

/-- `self.config.infill_criterion.name() == "LogEI"`. -/
def Crit.isLogEi : Crit → Bool
  | .logEi => true
  | _ => false

/-- `eval_infill_obj_with_cstrs` (`solver_computations.rs:398-422`). -/
noncomputable def evalInfillObjWithCstrs (c : Crit) (x : Pt d) (s : Surrogate d) (cs : List (Surrogate d))
    (tols : List ℝ) (fmin scale scaleIc : ℝ) (feasibility : Bool) (sigmaWeight : ℝ) : Except Panic ℝ :=
  (if feasibility then evalInfillObj c x s fmin scale scaleIc sigmaWeight
   else .ok (if c.isLogEi then 0 else -1)).map fun obj =>
    if c.isLogEi then obj - logpofs x cs tols else obj * pofs x cs tols

/-- Criterion and its gradient as used in the product (`solver_computations.rs:455-466`). -/
noncomputable def infillAndGrad (c : Crit) (x : Pt d) (s : Surrogate d)
    (fmin scale scaleIc : ℝ) (feasibility : Bool) (sigmaWeight : ℝ) : Except Panic (ℝ × Pt d) :=
  if feasibility then
    evalInfillObj c x s fmin scale scaleIc sigmaWeight >>= fun v =>
      (evalGradInfillObj c x s fmin scale scaleIc).map fun g => (v, g)
  else .ok (-1, 0)

/-- `eval_grad_infill_obj_with_cstrs` (`solver_computations.rs:426-475`). The gradient computed in advance
(lines 443-452) is only used with LogEI. -/
noncomputable def evalGradInfillObjWithCstrs (c : Crit) (x : Pt d) (s : Surrogate d) (cs : List (Surrogate d))
    (tols : List ℝ) (fmin scale scaleIc : ℝ) (feasibility : Bool) (sigmaWeight : ℝ) : Except Panic (Pt d) :=
  if cs.isEmpty then evalGradInfillObj c x s fmin scale scaleIc
  else if c.isLogEi then
    (if feasibility then evalGradInfillObj c x s fmin scale scaleIc else .ok 0) >>= fun g =>
      (logpofsGrad x cs tols).map fun lg => fun j => g j - lg j
  else
    infillAndGrad c x s fmin scale scaleIc feasibility sigmaWeight >>= fun vg =>
      (pofsGrad x cs tols).map fun pg => fun j => vg.2 j * pofs x cs tols + pg j * vg.1

/-- `mean_cstr` (`solver_computations.rs:196-220`), value and full gradient; the selection of the active
components is `Coego.gradActive`. -/
noncomputable def meanCstr (s : Surrogate d) (x : Pt d) (scale : ℝ) : Except Panic ℝ :=
  (unwrap (s.predict x)).map fun p => p / scale

/-- See `meanCstr`. -/
noncomputable def meanCstrGrad (s : Surrogate d) (x : Pt d) (scale : ℝ) : Except Panic (Pt d) :=
  (unwrap (s.predictGrad x)).map fun g => fun j => g j / scale

/-- `upper_trust_bound_cstr` (`solver_computations.rs:224-257`, `CSTR_DOUBT = 3`): value. -/
noncomputable def utbCstr (s : Surrogate d) (x : Pt d) (scale : ℝ) : Except Panic ℝ :=
  (unwrap (s.valvar x)).map fun pv => (pv.1 + 3 * √pv.2) / scale

/-- `upper_trust_bound_cstr`: gradient in dimension `d + 1` (`var_grad[[0, 0]]` is out of bounds in
dimension 0). -/
noncomputable def utbCstrGrad (s : Surrogate (d + 1)) (x : Pt (d + 1)) (scale : ℝ) : Except Panic (Pt (d + 1)) :=
  unwrap (s.valvar x) >>= fun pv =>
    (unwrap (s.valvarGrad x)).map fun g => fun j =>
      (g.1 j + 3 * (if √pv.2 < eps then 0 else g.2 0 / (2 * √pv.2))) / scale

/-- `compute_infill_obj_scale` (`solver_computations.rs:297-351`) from the criterion objective values at
the sample (`crit`), without the replacement of NaN and infinite values by 1, which do not exist here,
and from the probabilities of feasibility when the constrained criterion is used. -/
noncomputable def infillObjScale (c : Crit) (cstrInfill : Bool) (xs : List (Pt d)) (crit : Pt d → ℝ)
    (cs : List (Surrogate d)) (tols : List ℝ) : ℝ :=
  let vals := xs.map fun x =>
    if cstrInfill then
      (if c.isLogEi then crit x - logpofs x cs tols else crit x * pofs x cs tols)
    else crit x
  let scale := match vals.map fun v => |v| with
    | [] => 1
    | a :: l => l.foldl max a
  if scale < 100 * eps then 1 else scale

/-- `compute_cstr_scales` for one constraint (`utils/misc.rs:10-28`) from the predictions at the sample. -/
noncomputable def cstrScale (preds : List ℝ) : ℝ :=
  match preds.map fun v => |v| with
  | [] => 1
  | a :: l => l.foldl max a

end Verif.Criteria
