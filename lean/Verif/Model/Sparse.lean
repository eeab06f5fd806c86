import Verif.Model.Gp
import Verif.Model.Tuning

/-!
# Sparse Gaussian processes

Model of `/repo/crates/gp/src/sparse_algorithm.rs` and of the parameters of
`/repo/crates/gp/src/sparse_parameters.rs`, over `ℝ`. The linear algebra routines are those of `Gp.LinAlg`; `none`
stands for a failure of one of them (which is unwrapped, so that the code panics) or for a division by zero.
The regression giving the PLS weights is not modelled: the weights are parameters.
-/

set_option autoImplicit false

namespace Verif.Sparse

open Matrix Kernels Gp

variable {n m d h : ℕ}

/-- `compute_k` (`sparse_algorithm.rs:218-233, 676-691`). -/
noncomputable def computeK {p q : ℕ} (k : Kernel) (a : Fin p → Fin d → ℝ) (b : Fin q → Fin d → ℝ)
    (w : Fin d → Fin h → ℝ) (theta : Fin h → ℝ) (sigma2 : ℝ) : Matrix (Fin p) (Fin q) ℝ :=
  Matrix.of fun i j => k.value theta w (fun l => a i l - b j l) * sigma2

/-- `WoodburyData` (`sparse_algorithm.rs:32-35`). -/
structure Woodbury (m : ℕ) where
  vec : Matrix (Fin m) (Fin 1) ℝ
  inv : Matrix (Fin m) (Fin m) ℝ

/-- `ln`: NaN (`none`) for a negative number; zero would give an infinity and is `none` too. -/
noncomputable def ln (v : ℝ) : Option ℝ := if 0 < v then some (Real.log v) else none

open Classical in
/-- Sum of logarithms. -/
noncomputable def sumLn {k : ℕ} (v : Fin k → ℝ) : Option ℝ :=
  if ∀ i, 0 < v i then some (∑ i, Real.log (v i)) else none

open Classical in
/-- `fitc` (`sparse_algorithm.rs:695-765`): likelihood (`none` for NaN) and data used for predictions. A null
element of `nu` gives an infinite precision: `none`. -/
noncomputable def fitc (la : LinAlg) (k : Kernel) (theta : Fin h → ℝ) (sigma2 noise : ℝ) (w : Fin d → Fin h → ℝ)
    (xtrain : Fin n → Fin d → ℝ) (ytrain : Fin n → ℝ) (z : Fin m → Fin d → ℝ) (nugget : ℝ) :
    Option (Option ℝ × Woodbury m) := do
  let kmm := computeK k z z w theta sigma2 + nugget • (1 : Matrix (Fin m) (Fin m) ℝ)
  let kmn := computeK k z xtrain w theta sigma2
  let u ← la.chol kmm
  let ui ← la.solve .lower u (1 : Matrix (Fin m) (Fin m) ℝ)
  let v := ui * kmn
  let nu : Fin n → ℝ := fun i => sigma2 - ∑ a, v a i * v a i + noise
  if ∃ i, nu i = 0 then none
  else do
    let beta : Fin n → ℝ := fun i => 1 / nu i
    let a := 1 + (Matrix.of fun i j => v i j * beta j) * vᵀ
    let l ← la.chol a
    let li ← la.solve .lower l (1 : Matrix (Fin m) (Fin m) ℝ)
    let am : Matrix (Fin n) (Fin 1) ℝ := Matrix.of fun i _ => ytrain i * beta i
    let b := li * v * am
    let term3 := ∑ i, am i 0 * ytrain i
    let term4 := -∑ i, b i 0 * b i 0
    let lkh := (sumLn nu).bind fun term1 => (sumLn fun i => l i i).map fun s =>
      -(1 / 2) * (term1 + 2 * s + term3 + term4)
    let liui := li * ui
    some (lkh, ⟨liuiᵀ * b, uiᵀ * ui - liuiᵀ * liui⟩)

/-- `vfe` (`sparse_algorithm.rs:769-830`); a division by zero is `none`. -/
noncomputable def vfe (la : LinAlg) (k : Kernel) (theta : Fin h → ℝ) (sigma2 noise : ℝ) (w : Fin d → Fin h → ℝ)
    (xtrain : Fin n → Fin d → ℝ) (ytrain : Fin n → ℝ) (z : Fin m → Fin d → ℝ) (nugget : ℝ) :
    Option (Option ℝ × Woodbury m) := do
  let kmm := computeK k z z w theta sigma2 + nugget • (1 : Matrix (Fin m) (Fin m) ℝ)
  let kmn := computeK k z xtrain w theta sigma2
  let u ← la.chol kmm
  let ui ← la.solve .lower u (1 : Matrix (Fin m) (Fin m) ℝ)
  let v := ui * kmn
  if max noise nugget = 0 then none
  else do
    let beta := 1 / max noise nugget
    let a := beta • (v * vᵀ)
    let l ← la.chol (1 + a)
    let li ← la.solve .lower l (1 : Matrix (Fin m) (Fin m) ℝ)
    let y : Matrix (Fin n) (Fin 1) ℝ := Matrix.of fun i _ => ytrain i
    let b := beta • (li * v * y)
    let term3 := beta * ∑ i, ytrain i * ytrain i
    let term4 := -(bᵀ * b) 0 0
    let term5 := n * beta * sigma2
    let term6 := -∑ i, a i i
    let lkh := (ln beta).bind fun lb => (sumLn fun i => l i i).map fun s =>
      -(1 / 2) * (-(n : ℝ) * lb + 2 * s + term3 + term4 + term5 + term6)
    let liui := li * ui
    let bi := 1 + liᵀ * li
    some (lkh, ⟨liuiᵀ * b, uiᵀ * bi * ui⟩)

/-- `SparseMethod` (`sparse_parameters.rs:50-59`). -/
inductive Method where
  | fitc
  | vfe
deriving DecidableEq, Repr

/-- `reduced_likelihood` (`sparse_algorithm.rs:654-673`). -/
noncomputable def reducedLikelihood (la : LinAlg) : Method → Kernel → (Fin h → ℝ) → ℝ → ℝ → (Fin d → Fin h → ℝ) →
    (Fin n → Fin d → ℝ) → (Fin n → ℝ) → (Fin m → Fin d → ℝ) → ℝ → Option (Option ℝ × Woodbury m)
  | .fitc => fitc la
  | .vfe => vfe la

/-- `SparseGaussianProcess` (`sparse_algorithm.rs:143-168`), the fields used by the predictions. -/
structure Model (n m d h : ℕ) where
  kernel : Kernel
  theta : Fin h → ℝ
  sigma2 : ℝ
  noise : ℝ
  likelihood : Option ℝ
  w : Fin d → Fin h → ℝ
  inducings : Fin m → Fin d → ℝ
  data : Woodbury m
  xtrain : Fin n → Fin d → ℝ
  ytrain : Fin n → ℝ

/-- The end of `fit` (`sparse_algorithm.rs:623-647`): the model for the retained parameters. -/
noncomputable def fitWith (la : LinAlg) (method : Method) (kernel : Kernel) (theta : Fin h → ℝ) (sigma2 noise : ℝ)
    (w : Fin d → Fin h → ℝ) (x : Fin n → Fin d → ℝ) (y : Fin n → ℝ) (z : Fin m → Fin d → ℝ) (nugget : ℝ) :
    Option (Model n m d h) :=
  (reducedLikelihood la method kernel theta sigma2 noise w x y z nugget).map fun r =>
    ⟨kernel, theta, sigma2, noise, r.1, w, z, r.2, x, y⟩

namespace Model

/-- `predict` (`sparse_algorithm.rs:237-241`), one row. -/
noncomputable def predict (g : Model n m d h) (x : Fin d → ℝ) : ℝ :=
  (computeK g.kernel (fun _ : Fin 1 => x) g.inducings g.w g.theta g.sigma2 * g.data.vec) 0 0

/-- `predict_var` (`sparse_algorithm.rs:245-257`), one row. -/
noncomputable def predictVar (g : Model n m d h) (x : Fin d → ℝ) : ℝ :=
  let kx := computeK g.kernel g.inducings (fun _ : Fin 1 => x) g.w g.theta g.sigma2
  let v := g.sigma2 - ∑ a, (g.data.invᵀ * kx) a 0 * kx a 0
  if v < 1e-15 then 1e-15 + g.noise else v + g.noise

/-- `finitediff::ndarr::central_diff`: each component is moved by the step in both directions. The step of the crate
is the cubic root of the machine epsilon; it is a parameter here. -/
noncomputable def centralDiff (step : ℝ) (f : (Fin d → ℝ) → ℝ) (x : Fin d → ℝ) : Fin d → ℝ := fun j =>
  (f (Function.update x j (x j + step)) - f (Function.update x j (x j - step))) / (2 * step)

/-- `predict_gradients` (`sparse_algorithm.rs:300-316`), one row. Not modelled: with single precision numbers the
conversions read eight bytes of a number of four bytes. -/
noncomputable def predictGradients (g : Model n m d h) (step : ℝ) (x : Fin d → ℝ) : Fin d → ℝ :=
  centralDiff step g.predict x

/-- `predict_var_gradients` (`sparse_algorithm.rs:320-335`), one row; same remark. -/
noncomputable def predictVarGradients (g : Model n m d h) (step : ℝ) (x : Fin d → ℝ) : Fin d → ℝ :=
  centralDiff step g.predictVar x

/-- `dims` (`sparse_algorithm.rs:294-296`). -/
def dims (_ : Model n m d h) : ℕ × ℕ := (d, n)

/-- The covariance given to `sample` by `_sample` (`sparse_algorithm.rs:352-361`). -/
noncomputable def sampleCovariance (g : Model n m d h) {t : ℕ} (xs : Fin t → Fin d → ℝ) : Matrix (Fin t) (Fin t) ℝ :=
  computeK g.kernel xs xs g.w g.theta g.sigma2

end Model

/-- `make_inducings` (`sparse_algorithm.rs:833-847`): `shuffled` are the row numbers after the shuffle. Slicing and
row access panic when out of range. -/
def makeInducings {α : Type} (nInducing : ℕ) (xt : List α) (shuffled : List ℕ) : Except Panic (List α) :=
  let n := min nInducing xt.length
  if n ≤ shuffled.length then Tuning.select xt (shuffled.take n) else .error .outOfBounds

/-- `Inducings` (`sparse_parameters.rs:36-43`). -/
inductive Inducings (α : Type) where
  | randomized (n : ℕ)
  | located (z : List α)

/-- Inducing points of the fit (`sparse_algorithm.rs:461-464`). -/
def inducingPoints {α : Type} (i : Inducings α) (xt : List α) (shuffled : List ℕ) : Except Panic (List α) :=
  match i with
  | .randomized n => makeInducings n xt shuffled
  | .located z => .ok z

/-! ## Parameters found by `fit` -/

open Tuning

/-- `ParamTuning` (`sparse_parameters.rs:14-24`). -/
inductive ParamTuning where
  | fixed (v : ℝ)
  | optimized (init lo up : ℝ)

/-- Noise and whether it is estimated (`sparse_algorithm.rs:467-470`). -/
def ParamTuning.init : ParamTuning → ℝ
  | .fixed c => c
  | .optimized c _ _ => c

def ParamTuning.isEstimated : ParamTuning → Bool
  | .fixed _ => false
  | .optimized _ _ _ => true

/-- What the code depends on: negative likelihood of `theta`, variance and noise, optimizer, random numbers,
distribution among threads. -/
structure Env where
  nll : List ℝ → ℝ → ℝ → Flt
  opt : Optimizer
  rng : Rng
  split : List (Flt × List ℝ) → Coego.Split (Flt × List ℝ)

/-- Initial value and bounds (`sparse_algorithm.rs:472-485`). -/
def initBounds : ThetaTuning → List ℝ × List (ℝ × ℝ)
  | .full init bounds => (init, bounds)
  | .part init bounds _ => (init, bounds)
  | .fixed init => (init, init.map fun v => (v, v))

/-- Initial value of all the parameters (`sparse_algorithm.rs:487-516`): `theta`, variance, and noise if it is
estimated. `sigma20` is the variance of the outputs. -/
def params0 (theta0 : List ℝ) (sigma20 : ℝ) (noise : ParamTuning) : List ℝ :=
  match noise with
  | .fixed _ => theta0 ++ [sigma20]
  | .optimized c _ _ => theta0 ++ [sigma20, c]

/-- Bounds before their adjustment (`sparse_algorithm.rs:560-572`): the second test compares the number of
initial values with the number of parameters. -/
def boundsOf (bounds : List (ℝ × ℝ)) (initLen nParams : ℕ) : Except Panic (List (ℝ × ℝ)) :=
  match bounds with
  | [b] => .ok (List.replicate nParams b)
  | bs => if initLen = nParams then .ok bs else .error .other

/-- `bounds[i] = b`. -/
def setBound (bounds : List (ℝ × ℝ)) (i : ℕ) (b : ℝ × ℝ) : Except Panic (List (ℝ × ℝ)) :=
  if i < bounds.length then .ok (bounds.set i b) else .error .outOfBounds

/-- Bounds of the variance and of the noise (`sparse_algorithm.rs:576-589`), for `k` components of `theta`. -/
noncomputable def adjustBounds (bounds : List (ℝ × ℝ)) (k : ℕ) (sigma20 : ℝ) (noise : ParamTuning) :
    Except Panic (List (ℝ × ℝ)) :=
  setBound bounds k (log10 1e-12, log10 (9 * sigma20)) >>= fun bs =>
    match noise with
    | .fixed _ => .ok bs
    | .optimized _ lo up => .ok (bs.set (bs.length - 1) (log10 lo, log10 up))

/-- The parameters of the likelihood read from the vector of the optimizer, with `k` components for `theta`
(`sparse_algorithm.rs:533-541`). -/
def readParams (k : ℕ) (noise : ParamTuning) (p : List ℝ) : List ℝ × ℝ × ℝ :=
  match noise with
  | .fixed c => (p.take k, p.getD k 0, c)
  | .optimized _ _ _ => (p.take k, p.getD k 0, p.getD (k + 1) 0)

/-- The function minimized (`sparse_algorithm.rs:518-556`). -/
noncomputable def objective (env : Env) (k : ℕ) (noise : ParamTuning) (x : List (Option ℝ)) : Except Panic Flt :=
  match allSome x with
  | none => .ok .pinf
  | some v =>
    let p := readParams k noise (v.map pow10)
    .ok (env.nll p.1 p.2.1 p.2.2)

/-- `theta`, variance and noise of the fitted model (`sparse_algorithm.rs:466-622`) for `dim` components of
`theta`. -/
noncomputable def fitParams (env : Env) (dim nStart maxEval : ℕ) (tuning : ThetaTuning) (noise : ParamTuning)
    (sigma20 : ℝ) : Except Panic (List ℝ × ℝ × ℝ) := do
  let ib := initBounds tuning
  let theta0 ← expand dim ib.1
  let p0 := params0 theta0 sigma20 noise
  let bounds ← boundsOf ib.2 ib.1.length p0.length
  let ms ← prepareMultistart env.rng nStart p0 bounds
  let bounds ← adjustBounds ms.2 dim sigma20 noise
  let limit ← evalLimit ib.1.length maxEval
  let results := ms.1.map fun x0 => optimizeParams env.opt (objective env dim noise) x0 bounds limit
  let best := (env.split results).reduce (List.replicate p0.length 1)
  .ok (readParams dim noise (best.2.map pow10))

end Verif.Sparse
