import Verif.Model.Gp

/-!
# Gaussian process: predictions of the `blas` build

Model over `ℝ` of what differs in `/repo/crates/gp/src/algorithm.rs` when the crate is built with the `blas` feature
(`#[cfg(feature = "blas")]`). The triangular solver of `ndarray-linalg` is external and is given the same contract as
the one of `linfa-linalg`: it reads the triangle named by its `UPLO` argument. `reduced_likelihood`
(`gp/src/algorithm.rs:1060-1147`) makes the same calls in the two builds and is not repeated.
-/

set_option autoImplicit false

namespace Verif.Gp.Model

open Matrix Kernels Means

variable {n d h : ℕ}

/-- `_compute_rt_u` (`gp/src/algorithm.rs:330-369`) with `blas` (lines 338-345 and 353-361), one point: the second solver is
given the transpose of the upper triangular factor and reads its upper triangle. -/
noncomputable def rtUBlas (la : LinAlg) (g : Model n d h) (xn : Fin d → ℝ) :
    Option (Matrix (Fin n) (Fin 1) ℝ × Matrix (Fin (basis g.mean d)) (Fin 1) ℝ) := do
  let rt ← la.solve .lower g.inner.rChol (fun i (_ : Fin 1) => g.corr xn i)
  let rhs : Matrix (Fin (basis g.mean d)) (Fin 1) ℝ := g.inner.ftᵀ * rt - Matrix.of fun a _ => g.f xn a
  let u ← la.solve .upper g.inner.ftQrRᵀ rhs
  some (rt, u)

/-- `predict_var` (`gp/src/algorithm.rs:267-279`) with `blas`, one row. -/
noncomputable def predictVarBlas (la : LinAlg) (g : Model n d h) (x : Fin d → ℝ) : Option ℝ :=
  (g.rtUBlas la (g.xnorm x)).map fun ru =>
    let m := g.inner.sigma2 * (1 - ∑ i, ru.1 i 0 * ru.1 i 0 + ∑ a, ru.2 a 0 * ru.2 a 0)
    if m < 0 then 0 else m

/-- `_compute_covariance` (`gp/src/algorithm.rs:310-326`) with `blas`, at `m` points. -/
noncomputable def covarianceBlas (la : LinAlg) (g : Model n d h) {m : ℕ} (xs : Fin m → Fin d → ℝ) :
    Option (Matrix (Fin m) (Fin m) ℝ) := do
  let xn : Fin m → Fin d → ℝ := fun a => g.xnorm (xs a)
  let rt ← la.solve .lower g.inner.rChol (Matrix.of fun i (a : Fin m) => g.corr (xn a) i)
  let rhs : Matrix (Fin (basis g.mean d)) (Fin m) ℝ := g.inner.ftᵀ * rt - (meanMat g.mean xn)ᵀ
  let u ← la.solve .upper g.inner.ftQrRᵀ rhs
  let k : Matrix (Fin m) (Fin m) ℝ := Matrix.of fun a b => g.kernel.value g.theta g.w fun j => xn a j - xn b j
  some (g.inner.sigma2 • (k - rtᵀ * rt + uᵀ * u))

/-- `D` (`gp/src/algorithm.rs:671-684`): the two solves, or zeros when the factorization fails. `uplo` is the triangle read
by the first solver: the code gives `UPLO::Upper` although the factor is lower triangular. The zeros have as many
columns as rows, only their first row matters after the broadcast of `p4 - p2`. -/
noncomputable def dMatBlas (la : LinAlg) (uplo : Uplo) {p : ℕ} (bMat : Matrix (Fin p) (Fin p) ℝ)
    (at_ : Matrix (Fin p) (Fin 1) ℝ) : Option (Matrix (Fin p) (Fin 1) ℝ) :=
  match la.chol bMat with
  | some rho3 => do
    let invBat ← la.solve uplo rho3 at_
    la.solve .upper rho3ᵀ invBat
  | none => some 0

/-- `predict_var_gradients_single` (`gp/src/algorithm.rs:621-698`) with `blas`; `uplo` is `.upper` in the code, see
`dMatBlas`. The basis functions are taken at the point itself, not at the normalized point (line 656). -/
noncomputable def predictVarGradientBlasWith (uplo : Uplo) (la : LinAlg) (g : Model n d h) (x : Fin d → ℝ) :
    Option (Fin d → ℝ) := do
  let xn := g.xnorm x
  let r : Matrix (Fin n) (Fin 1) ℝ := fun i _ => g.corr xn i
  let dr : Matrix (Fin n) (Fin d) ℝ := g.kernel.jacobian xn g.xtData g.theta g.w
  let rho1 ← la.solve .lower g.inner.rChol r
  let invKr ← la.solve .upper g.inner.rCholᵀ rho1
  let p2 : Matrix (Fin 1) (Fin d) ℝ := invKrᵀ * dr
  let fx : Matrix (Fin (basis g.mean d)) (Fin 1) ℝ := fun a _ => g.f x a
  let fMean := meanMat g.mean g.xtData
  let rho2 ← la.solve .lower g.inner.rChol fMean
  let invKf ← la.solve .upper g.inner.rCholᵀ rho2
  let aMat : Matrix (Fin 1) (Fin (basis g.mean d)) ℝ := fxᵀ - rᵀ * invKf
  let bMat := fMeanᵀ * invKf
  let dMat ← dMatBlas la uplo bMat aMatᵀ
  match g.mean.jacobian xn with
  | .error _ => none
  | .ok df =>
    let dfm : Matrix (Fin (basis g.mean d)) (Fin d) ℝ := fun a j => df.at_ a j
    let dA : Matrix (Fin d) (Fin (basis g.mean d)) ℝ := dfmᵀ - drᵀ * invKf
    let p4 := dMatᵀ * dAᵀ
    some fun j => 2 * (p4 0 j - p2 0 j) / g.xtStd j * g.inner.sigma2

/-- `predict_var_gradients_single` with `blas`, as written. -/
noncomputable def predictVarGradientBlas (la : LinAlg) (g : Model n d h) (x : Fin d → ℝ) : Option (Fin d → ℝ) :=
  g.predictVarGradientBlasWith .upper la x

end Verif.Gp.Model
