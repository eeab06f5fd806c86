import Verif.Model.Gp
import Verif.Model.Sparse

/-!
# Sampling of trajectories

`gp/src/algorithm.rs:382-411, 1149-1194` and `gp/src/sparse_algorithm.rs:337-361`, on top of `Verif.Model.Gp`.
-/

set_option autoImplicit false

namespace Verif.Gp

/-- `GpSamplingMethod` (`gp/src/parameters.rs`). -/
inductive SamplingMethod where
  | cholesky
  | eigenvalues

/-- Contract of `eigh` (ndarray-linalg) and `eigh_into` (linfa-linalg) on symmetric matrices: eigenvalues and an
orthogonal matrix of eigenvectors, in columns. -/
structure Eigen where
  eigh : {m : ℕ} → Matrix (Fin m) (Fin m) ℝ → (Fin m → ℝ) × Matrix (Fin m) (Fin m) ℝ
  orthogonal : ∀ {m : ℕ} (C : Matrix (Fin m) (Fin m) ℝ), C.transpose = C → (eigh C).2.transpose * (eigh C).2 = 1
  spec : ∀ {m : ℕ} (C : Matrix (Fin m) (Fin m) ℝ), C.transpose = C →
    (eigh C).2 * Matrix.diagonal (eigh C).1 * (eigh C).2.transpose = C

/-- The factor `c` of `sample` (`gp/src/algorithm.rs:1161-1189`); `none` is the panic of `unwrap` when the Cholesky
factorization fails. -/
noncomputable def factor (la : LinAlg) (eg : Eigen) {m : ℕ} (method : SamplingMethod) (cov : Matrix (Fin m) (Fin m) ℝ) :
    Option (Matrix (Fin m) (Fin m) ℝ) :=
  match method with
  | .cholesky => factorChol la cov
  | .eigenvalues => some (factorEig (eg.eigh cov).1 (eg.eigh cov).2)

/-- `_sample` (`gp/src/algorithm.rs:402-411`), called with its method by `sample_chol` (382-384) and `sample_eig`
(387-389): one row per point of `xs`, one column per trajectory; `z` are the draws of `Array::random`
(1191-1192), of the same shape. -/
noncomputable def Model.trajectories {n d h : ℕ} (la : LinAlg) (eg : Eigen) (g : Model n d h) (method : SamplingMethod)
    {m t : ℕ} (xs : Fin m → Fin d → ℝ) (z : Matrix (Fin m) (Fin t) ℝ) : Option (Matrix (Fin m) (Fin t) ℝ) := do
  let cov ← g.covariance la xs
  let c ← factor la eg method cov
  some (sample (fun a => g.predict (xs a)) c z)

/-- `sample` (`gp/src/algorithm.rs:392-394`), also called by the surrogates of mixtures and by Python. -/
noncomputable def Model.sampled {n d h : ℕ} (la : LinAlg) (eg : Eigen) (g : Model n d h) {m t : ℕ}
    (xs : Fin m → Fin d → ℝ) (z : Matrix (Fin m) (Fin t) ℝ) : Option (Matrix (Fin m) (Fin t) ℝ) :=
  g.trajectories la eg .eigenvalues xs z

end Verif.Gp

namespace Verif.Sparse

/-- `_sample` of sparse processes (`gp/src/sparse_algorithm.rs:352-361`), called by `sample_chol` (338-340), and by
`sample_eig` and `sample` (343-350). -/
noncomputable def Model.trajectories {n k d h : ℕ} (la : Gp.LinAlg) (eg : Gp.Eigen) (g : Model n k d h)
    (method : Gp.SamplingMethod) {m t : ℕ} (xs : Fin m → Fin d → ℝ) (z : Matrix (Fin m) (Fin t) ℝ) :
    Option (Matrix (Fin m) (Fin t) ℝ) :=
  (Gp.factor la eg method (g.sampleCovariance xs)).map fun c => Gp.sample (fun a => g.predict (xs a)) c z

end Verif.Sparse
