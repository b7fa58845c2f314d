import Mathlib.Analysis.SpecialFunctions.Exp
import Mathlib.Analysis.SpecialFunctions.Sqrt
import Mathlib.Data.Matrix.Mul
import Verif.Model.Num
import Verif.Model.Univariate

/-!
# Gaussian-process utilities

`examples/gaussian_process/utils.py`.  The points are rows of matrices; a batch of matrices is not modelled, except
for the shape of `Kdiag`.  Arithmetic is exact.
-/

set_option autoImplicit false

namespace ZhuSuan.GP

open Matrix

/-! ## RBFKernel -/

/-- `self.k_scale` (13–16). -/
noncomputable def kScale {κ : Type} (raw : κ → ℝ) (c : κ) : ℝ := Uni.softplus (raw c)

/-- `RBFKernel.__call__` (18–40) on matrices of points. -/
noncomputable def rbf {κ ι ι' : Type} [Fintype κ] (scale : κ → ℝ) (x : ι → κ → ℝ) (y : ι' → κ → ℝ) : Matrix ι ι' ℝ :=
  Matrix.of fun i j => Real.exp (-(∑ c, (x i c - y j c) ^ 2 / scale c) / 2)

/-- `RBFKernel.Kdiag` (42–49) on a matrix of points. -/
def kDiag {κ ι : Type} (_ : ι → κ → ℝ) (_ : ι) : ℝ := 1

/-- The shape of the ones that `Kdiag` returns (46–49), for `x` of the given shape; `none` is an index out of range. -/
def kDiagShape (s : List ℕ) : Option (List ℕ) :=
  if s.length = 2 then s[0]?.map fun a => [a]
  else s[0]?.bind fun a => s[1]?.map fun b => [a, b]

/-! ## gp_conditional -/

/-- The distribution that `gp_conditional` returns: a `MultivariateNormalCholesky` (80–81), given here by the matrix
that is passed to `tf.cholesky`, or a `Normal` (88–89). -/
inductive Cond (p : ℕ) (ι : Type) where
  | full (mean : Fin p → ι → ℝ) (cov : Matrix ι ι ℝ)
  | diag (mean : Fin p → ι → ℝ) (std : ι → ℝ)

section
variable {κ ι : Type} [Fintype κ] [Fintype ι] {nz p : ℕ}

/-- `Kzz_chol_inv` (69): `tf.matrix_triangular_solve(Kzz_chol, tf.eye(n_z))`, column by column. -/
noncomputable def cholInv (chol : Fin nz → Fin nz → ℝ) : Matrix (Fin nz) (Fin nz) ℝ :=
  Matrix.of fun i j => Num.triSolve chol (fun k => if k = j then 1 else 0) i

/-- `gp_conditional` (52–90), for the Cholesky factor `chol` of `kernel(z, z)`: what `tf.cholesky` returns (63–64) or
what the caller gives. -/
noncomputable def gpConditional (scale : κ → ℝ) (z : Fin nz → κ → ℝ) (fz : Matrix (Fin p) (Fin nz) ℝ) (x : ι → κ → ℝ)
    (fullCov : Bool) (chol : Fin nz → Fin nz → ℝ) : Cond p ι :=
  let cinv := cholInv chol
  let kzzInv := cinvᵀ * cinv
  let kxz := rbf scale x z
  let kxziz := kxz * kzzInv
  let mean := fz * kxziz ᵀ
  if fullCov then
    let cov := rbf scale x x - kxziz * kxzᵀ
    .full mean cov
  else
    let var := fun i => kDiag x i - ∑ k, (kxz * cinvᵀ) i k ^ 2
    .diag mean fun i => Real.sqrt (var i)

end

end ZhuSuan.GP
