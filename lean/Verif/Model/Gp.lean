import Mathlib.LinearAlgebra.Matrix.NonsingularInverse
import Mathlib.LinearAlgebra.Matrix.PosDef
import Mathlib.Analysis.SpecialFunctions.Log.Basic
import Verif.Model.Kernels
import Verif.Model.Means
import Verif.Model.GpUtils

/-!
# Gaussian process: likelihood computation and predictions

Model over `ℝ` of `/repo/crates/gp/src/algorithm.rs` (default build, without the `blas` feature): normalization,
correlation matrix, Cholesky and QR factorizations, prediction of values, variances and gradients. The routines of
the linear algebra crate are external: `LinAlg` gives them the properties they have in exact arithmetic.
`none` stands for an error or a panic.
-/

set_option autoImplicit false

namespace Verif.Gp

open Matrix Kernels Means GpUtils

/-- `UPLO`. -/
inductive Uplo where
  | upper
  | lower
deriving DecidableEq, Repr

/-- The triangle of a square matrix which is read by the triangular solver. -/
def tri {n : ℕ} : Uplo → Matrix (Fin n) (Fin n) ℝ → Matrix (Fin n) (Fin n) ℝ
  | .upper, a => fun i j => if i ≤ j then a i j else 0
  | .lower, a => fun i j => if j ≤ i then a i j else 0

/-- External linear algebra routines (`linfa-linalg`) with their contracts in exact arithmetic. -/
structure LinAlg where
  /-- `cholesky` -/
  chol : {n : ℕ} → Matrix (Fin n) (Fin n) ℝ → Option (Matrix (Fin n) (Fin n) ℝ)
  chol_spec : ∀ {n : ℕ} (a l : Matrix (Fin n) (Fin n) ℝ), aᵀ = a → chol a = some l →
    l * lᵀ = a ∧ (∀ i j, i < j → l i j = 0) ∧ ∀ i, 0 < l i i
  chol_total : ∀ {n : ℕ} (a : Matrix (Fin n) (Fin n) ℝ), a.PosDef → ∃ l, chol a = some l
  /-- `solve_triangular` -/
  solve : {n k : ℕ} → Uplo → Matrix (Fin n) (Fin n) ℝ → Matrix (Fin n) (Fin k) ℝ → Option (Matrix (Fin n) (Fin k) ℝ)
  solve_spec : ∀ {n k : ℕ} (u : Uplo) (a : Matrix (Fin n) (Fin n) ℝ) (b x : Matrix (Fin n) (Fin k) ℝ),
    solve u a b = some x → (∀ i, a i i ≠ 0) ∧ tri u a * x = b
  solve_total : ∀ {n k : ℕ} (u : Uplo) (a : Matrix (Fin n) (Fin n) ℝ) (b : Matrix (Fin n) (Fin k) ℝ),
    (∀ i, a i i ≠ 0) → ∃ x, solve u a b = some x
  /-- `qr().into_decomp()` -/
  qr : {n p : ℕ} → Matrix (Fin n) (Fin p) ℝ → Option (Matrix (Fin n) (Fin p) ℝ × Matrix (Fin p) (Fin p) ℝ)
  qr_spec : ∀ {n p : ℕ} (a q : Matrix (Fin n) (Fin p) ℝ) (r : Matrix (Fin p) (Fin p) ℝ), qr a = some (q, r) →
    q * r = a ∧ qᵀ * q = 1 ∧ ∀ i j, j < i → r i j = 0
  /-- whether the singular values pass the conditioning test (`gp/src/algorithm.rs:1009-1027`) -/
  wellConditioned : {n p : ℕ} → Matrix (Fin n) (Fin p) ℝ → Matrix (Fin p) (Fin p) ℝ → Bool

/-- Number of basis functions of a mean in dimension `d` (the number of columns of its value). -/
def basis : Mean → ℕ → ℕ
  | .constant, _ => 1
  | .linear, d => 1 + d
  | .quadratic, d => 1 + d + d * (d + 1) / 2

/-- `RegressionModel::value` as a matrix: one row for each point. -/
def meanMat {d n : ℕ} (k : Mean) (x : Fin n → Fin d → ℝ) : Matrix (Fin n) (Fin (basis k d)) ℝ :=
  fun i a => (k.value (x i)).getD a 0

/-- `r_mx` (`gp/src/algorithm.rs:997-1001`): `1 + nugget` on the diagonal, then for each row of the table of
differences the correlation is written at the two symmetric places. -/
noncomputable def rMx {n : ℕ} (N : ℕ) (ind : ℕ → ℕ × ℕ) (rxx : ℕ → ℝ) (nugget : ℝ) : Matrix (Fin n) (Fin n) ℝ :=
  (List.range N).foldl (fun (r : Matrix (Fin n) (Fin n) ℝ) k => fun i j =>
      if (i.val = (ind k).1 ∧ j.val = (ind k).2) ∨ (i.val = (ind k).2 ∧ j.val = (ind k).1) then rxx k else r i j)
    (fun i j => (if i = j then 1 else 0) + (if i = j then 1 else 0) * nugget)

/-- `GpInnerParams` (`gp/src/algorithm.rs:47-60`). -/
structure Inner (n p : ℕ) where
  sigma2 : ℝ
  beta : Matrix (Fin p) (Fin 1) ℝ
  gamma : Matrix (Fin n) (Fin 1) ℝ
  rChol : Matrix (Fin n) (Fin n) ℝ
  ft : Matrix (Fin n) (Fin p) ℝ
  ftQrR : Matrix (Fin p) (Fin p) ℝ

/-- `reduced_likelihood` (`gp/src/algorithm.rs:989-1056`) for `n` observations. -/
noncomputable def reducedLikelihood (la : LinAlg) {n p : ℕ} (fx : Matrix (Fin n) (Fin p) ℝ)
    (rmx : Matrix (Fin n) (Fin n) ℝ) (ydata : Matrix (Fin n) (Fin 1) ℝ) (ystd : ℝ) : Option (ℝ × Inner n p) := do
  let rChol ← la.chol rmx
  let ft ← la.solve .lower rChol fx
  let (q, r) ← la.qr ft
  if la.wellConditioned ft r = false then none
  else do
    let yt ← la.solve .lower rChol ydata
    let beta ← la.solve .upper r (qᵀ * yt)
    let rho := yt - ft * beta
    let rhoSqr := ∑ i, rho i 0 * rho i 0
    let gamma ← la.solve .upper rCholᵀ rho
    let logdet := (∑ i, Real.log (rChol i i) / Real.log 10) * 2 / n
    let sigma2 := rhoSqr / n
    let lkh := -(n : ℝ) * (Real.log sigma2 / Real.log 10 + logdet)
    some (lkh, ⟨sigma2 * ystd * ystd, beta, gamma, rChol, ft, r⟩)

/-- `GaussianProcess` (`gp/src/algorithm.rs:174-192`), without the parameters only kept for the user. -/
structure Model (n d h : ℕ) where
  kernel : Kernel
  mean : Mean
  theta : Fin h → ℝ
  w : Fin d → Fin h → ℝ
  likelihood : ℝ
  inner : Inner n (basis mean d)
  xtData : Fin n → Fin d → ℝ
  xtMean : Fin d → ℝ
  xtStd : Fin d → ℝ
  ytData : Fin n → ℝ
  ytMean : ℝ
  ytStd : ℝ

variable {n d h : ℕ}

/-- The deviation used by `normalize` with two rows or more. -/
noncomputable def stdOf {m : ℕ} (x : Fin m → ℝ) : ℝ :=
  let v := √((∑ i, (x i - colMean x) ^ 2) / (m - 1))
  if v = 0 then 1 else v

/-- The part of `fit` (`gp/src/algorithm.rs:840-866, 966-978`) which does not depend on tuning: normalization, table of
differences, correlation matrix for the retained hyperparameters, reduced likelihood. Fewer than two observations
panic (mean of no row, or minimum of an empty table, `gp/src/algorithm.rs:861`). -/
noncomputable def fitWith (la : LinAlg) (kernel : Kernel) (mean : Mean) (nugget : ℝ) (theta : Fin h → ℝ)
    (w : Fin d → Fin h → ℝ) (x : Fin n → Fin d → ℝ) (y : Fin n → ℝ) : Option (Model n d h) :=
  if n < 2 then none
  else
    let xMean := fun j => colMean fun i => x i j
    let xStd := fun j => stdOf fun i => x i j
    let xData := fun i j => (x i j - xMean j) / xStd j
    let yMean := colMean y
    let yStd := stdOf y
    let yData := fun i => (y i - yMean) / yStd
    match crossDiff xData with
    | .error _ => none
    | .ok (N, c) =>
      let rxx := fun r => kernel.value theta w (c.d r)
      (reducedLikelihood la (meanMat mean xData) (rMx N c.ind rxx nugget) (fun i _ => yData i) yStd).map
        fun lp => ⟨kernel, mean, theta, w, lp.1, lp.2, xData, xMean, xStd, yData, yMean, yStd⟩

namespace Model

/-- `xnorm`. -/
noncomputable def xnorm (g : Model n d h) (x : Fin d → ℝ) : Fin d → ℝ := fun j => (x j - g.xtMean j) / g.xtStd j

/-- `_compute_correlation` (`gp/src/algorithm.rs:372-380`), one row. -/
noncomputable def corr (g : Model n d h) (xn : Fin d → ℝ) : Fin n → ℝ :=
  fun i => g.kernel.value g.theta g.w (fun j => xn j - g.xtData i j)

/-- Mean at one point. -/
noncomputable def f (g : Model n d h) (xn : Fin d → ℝ) : Fin (basis g.mean d) → ℝ :=
  fun a => (g.mean.value xn).getD a 0

/-- `predict` (`gp/src/algorithm.rs:253-263`), one row. -/
noncomputable def predict (g : Model n d h) (x : Fin d → ℝ) : ℝ :=
  let xn := g.xnorm x
  let y_ := ∑ a, g.f xn a * g.inner.beta a 0 + ∑ i, g.corr xn i * g.inner.gamma i 0
  y_ * g.ytStd + g.ytMean

/-- `_compute_rt_u` (`gp/src/algorithm.rs:330-369`), one point. -/
noncomputable def rtU (la : LinAlg) (g : Model n d h) (xn : Fin d → ℝ) :
    Option (Matrix (Fin n) (Fin 1) ℝ × Matrix (Fin (basis g.mean d)) (Fin 1) ℝ) := do
  let rt ← la.solve .lower g.inner.rChol (fun i (_ : Fin 1) => g.corr xn i)
  let rhs : Matrix (Fin (basis g.mean d)) (Fin 1) ℝ := g.inner.ftᵀ * rt - Matrix.of fun a _ => g.f xn a
  let u ← la.solve .lower g.inner.ftQrRᵀ rhs
  some (rt, u)

/-- Variance before clamping. -/
noncomputable def mse (la : LinAlg) (g : Model n d h) (x : Fin d → ℝ) : Option ℝ :=
  (g.rtU la (g.xnorm x)).map fun ru =>
    g.inner.sigma2 * (1 - ∑ i, ru.1 i 0 * ru.1 i 0 + ∑ a, ru.2 a 0 * ru.2 a 0)

/-- `predict_var` (`gp/src/algorithm.rs:267-279`), one row. -/
noncomputable def predictVar (la : LinAlg) (g : Model n d h) (x : Fin d → ℝ) : Option ℝ :=
  (g.mse la x).map fun v => if v < 0 then 0 else v

/-- `predict_valvar` (`gp/src/algorithm.rs:282-307`), one row: the code of the two functions is repeated. -/
noncomputable def predictValvar (la : LinAlg) (g : Model n d h) (x : Fin d → ℝ) : Option (ℝ × ℝ) :=
  let xn := g.xnorm x
  let y_ := ∑ a, g.f xn a * g.inner.beta a 0 + ∑ i, g.corr xn i * g.inner.gamma i 0
  let yp := y_ * g.ytStd + g.ytMean
  (g.rtU la xn).map fun ru =>
    let m := g.inner.sigma2 * (1 - ∑ i, ru.1 i 0 * ru.1 i 0 + ∑ a, ru.2 a 0 * ru.2 a 0)
    (yp, if m < 0 then 0 else m)

/-- `predict_jacobian` (`gp/src/algorithm.rs:523-550`), which gives the rows of `predict_gradients`
(`gp/src/algorithm.rs:510-519`). -/
noncomputable def predictGradient (g : Model n d h) (x : Fin d → ℝ) : Option (Fin d → ℝ) :=
  let xn := g.xnorm x
  match g.mean.jacobian xn with
  | .error _ => none
  | .ok df =>
    let dr := g.kernel.jacobian xn g.xtData g.theta g.w
    some fun j =>
      let dfdx := ∑ a : Fin (basis g.mean d), df.at_ a j * g.inner.beta a 0
      (dfdx + ∑ i, dr i j * g.inner.gamma i 0) * g.ytStd / g.xtStd j

/-- `predict_kth_derivatives` (`gp/src/algorithm.rs:443-506`), one row; `theta[kx]` panics when there are fewer
hyperparameters than components. The Jacobian of constant and linear means is taken at the point itself. -/
noncomputable def predictKth (g : Model n d h) (x : Fin d → ℝ) (kx : Fin d) : Option ℝ :=
  let xn := g.xnorm x
  if hk : kx.val < h then
    match g.mean.jacobian xn with
    | .error _ => none
    | .ok df =>
      let dfdx := ∑ a : Fin (basis g.mean d), df.at_ a kx * g.inner.beta a 0
      some ((dfdx - 2 * g.theta ⟨kx, hk⟩ * ∑ i, (xn kx - g.xtData i kx) * g.corr xn i * g.inner.gamma i 0)
        * g.ytStd / g.xtStd kx)
  else none

/-- `predict_var_gradients_single` (`gp/src/algorithm.rs:555-617`), default build. -/
noncomputable def predictVarGradient (la : LinAlg) (g : Model n d h) (x : Fin d → ℝ) : Option (Fin d → ℝ) := do
  let xn := g.xnorm x
  let vj := g.kernel.valjac xn g.xtData g.theta g.w
  let r : Matrix (Fin n) (Fin 1) ℝ := fun i _ => vj.1 i
  let dr : Matrix (Fin n) (Fin d) ℝ := vj.2
  let rho1 ← la.solve .lower g.inner.rChol r
  let invKr ← la.solve .upper g.inner.rCholᵀ rho1
  let p2 : Matrix (Fin 1) (Fin d) ℝ := invKrᵀ * dr
  let fx : Matrix (Fin (basis g.mean d)) (Fin 1) ℝ := fun a _ => g.f xn a
  let fMean := meanMat g.mean g.xtData
  let rho2 ← la.solve .lower g.inner.rChol fMean
  let invKf ← la.solve .upper g.inner.rCholᵀ rho2
  let aMat : Matrix (Fin 1) (Fin (basis g.mean d)) ℝ := fxᵀ - rᵀ * invKf
  let bMat := fMeanᵀ * invKf
  let rho3 ← la.chol bMat
  let invBat ← la.solve .lower rho3 aMatᵀ
  let dMat ← la.solve .upper rho3ᵀ invBat
  match g.mean.jacobian xn with
  | .error _ => none
  | .ok df =>
    let dfm : Matrix (Fin (basis g.mean d)) (Fin d) ℝ := fun a j => df.at_ a j
    let dA : Matrix (Fin d) (Fin (basis g.mean d)) ℝ := dfmᵀ - drᵀ * invKf
    let p4 := dMatᵀ * dAᵀ
    some fun j => 2 * (p4 0 j - p2 0 j) / g.xtStd j * g.inner.sigma2

/-- `_compute_covariance` (`gp/src/algorithm.rs:310-326`) at `m` points; `_compute_rt_u` for all the points. -/
noncomputable def covariance (la : LinAlg) (g : Model n d h) {m : ℕ} (xs : Fin m → Fin d → ℝ) :
    Option (Matrix (Fin m) (Fin m) ℝ) := do
  let xn : Fin m → Fin d → ℝ := fun a => g.xnorm (xs a)
  let rt ← la.solve .lower g.inner.rChol (Matrix.of fun i (a : Fin m) => g.corr (xn a) i)
  let rhs : Matrix (Fin (basis g.mean d)) (Fin m) ℝ := g.inner.ftᵀ * rt - (meanMat g.mean xn)ᵀ
  let u ← la.solve .lower g.inner.ftQrRᵀ rhs
  let k : Matrix (Fin m) (Fin m) ℝ := Matrix.of fun a b => g.kernel.value g.theta g.w fun j => xn a j - xn b j
  some (g.inner.sigma2 • (k - rtᵀ * rt + uᵀ * u))

end Model

/-- The factor of the covariance with `GpSamplingMethod::Cholesky` (`gp/src/algorithm.rs:1162-1168`). -/
noncomputable def factorChol (la : LinAlg) {m : ℕ} (cov : Matrix (Fin m) (Fin m) ℝ) : Option (Matrix (Fin m) (Fin m) ℝ) :=
  la.chol cov

/-- The factor of the covariance with `GpSamplingMethod::EigenValues` (`gp/src/algorithm.rs:1169-1187`), from the
eigenvalues `v` and eigenvectors `w`. -/
noncomputable def factorEig {m : ℕ} (v : Fin m → ℝ) (w : Matrix (Fin m) (Fin m) ℝ) : Matrix (Fin m) (Fin m) ℝ :=
  w * Matrix.diagonal fun i => if v i < 1e-9 then 0 else √(v i)

/-- `sample` (`gp/src/algorithm.rs:1153-1194`): column `t` is a trajectory, `z` are the draws of the standard normal law. -/
noncomputable def sample {m t : ℕ} (mean : Fin m → ℝ) (c : Matrix (Fin m) (Fin m) ℝ) (z : Matrix (Fin m) (Fin t) ℝ) :
    Matrix (Fin m) (Fin t) ℝ :=
  (Matrix.of fun i _ => mean i) + c * z

end Verif.Gp
