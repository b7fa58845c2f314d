import Verif.Model.Estimators
import Verif.Model.GaussianProcess
import Verif.Model.Minibatch

/-!
# Sparse variational Gaussian processes

`examples/gaussian_process/svgp.py`: the two nets and the evidence lower bound computed from a batch.  The variables are real
numbers that the caller gives.  Not modelled: the optimizer, the evaluation on test data, sessions, printing.
-/

set_option autoImplicit false

namespace ZhuSuan.Svgp

/-- The trainable variables: `k_raw_scale` of the kernel (utils.py 13–15), `noise_level` (svgp.py 67–69), `z/pos` (113–115), `z/mean`
(77–78) and `z/cov_raw` (79–80). -/
structure Params (κ : Type) (nz : ℕ) where
  kRaw : κ → ℝ
  noiseRaw : ℝ
  zPos : Fin nz → κ → ℝ
  zMean : Fin nz → ℝ
  zCovRaw : Fin nz → Fin nz → ℝ

/-- `noise_level = tf.nn.softplus(noise_level)` (svgp.py 70). -/
noncomputable def Params.noiseStd {κ : Type} {nz : ℕ} (P : Params κ nz) : ℝ := Uni.softplus P.noiseRaw

/-- `z_cov_tril`: `tf.matrix_band_part(z_cov_raw, -1, 0)` keeps the entries on and below the diagonal, and `tf.matrix_set_diag` replaces
the diagonal by its `softplus`.  (svgp.py 81–83) -/
noncomputable def Params.zCovTril {κ : Type} {nz : ℕ} (P : Params κ nz) (i j : Fin nz) : ℝ :=
  if i = j then Uni.softplus (P.zCovRaw i i) else if j ≤ i then P.zCovRaw i j else 0

/-- The two distributions are made with the default `is_reparameterized=True, use_path_derivative=False`.  (svgp.py 60–62, 84–85) -/
def flags : Num.Flags := ⟨true, false⟩

/-- The samples of `fz` of the variational net, from standard normal noise.  (svgp.py 84–85) -/
noncomputable def sampleFz {κ : Type} {nz K : ℕ} (P : Params κ nz) (e : Fin K → Fin nz → ℝ) (k : Fin K) : Fin nz → ℝ :=
  Num.mvnSample flags P.zMean P.zCovTril (e k)

/-- The samples of `fx` of the variational net at the rows `x`, from standard normal noise.  `gp_conditional` is called with
`full_cov=False`; `none` would be the other kind of distribution.  `chol` is what `tf.cholesky` returns for the kernel matrix of
`z_pos`.  (svgp.py 86; utils.py 52–90) -/
noncomputable def sampleFx {κ : Type} [Fintype κ] {nz K l : ℕ} (P : Params κ nz) (chol : Fin nz → Fin nz → ℝ)
    (fz : Fin K → Fin nz → ℝ) (x : Fin l → κ → ℝ) (e : Fin K → Fin l → ℝ) : Option (Fin K → Fin l → ℝ) :=
  match GP.gpConditional (GP.kScale P.kRaw) P.zPos (Matrix.of fz) x false chol with
  | .diag mean std => some fun k i => Uni.Normal.sample (mean k i) (std i) (e k i)
  | .full _ _ => none

/-- `log_joint` for particle values `fz`, `fx`: the log probability of `fz` under the model and that of `y`, divided by the number of
fed rows and times `n_train`.  (svgp.py 59–62, 71, 117, 125–127) -/
noncomputable def logJoint {κ : Type} {nz l : ℕ} (P : Params κ nz) (chol : Fin nz → Fin nz → ℝ) (n : ℕ) (y : Fin l → ℝ)
    (fz : Fin nz → ℝ) (fx : Fin l → ℝ) : ℝ :=
  Num.mvnLogProb flags (fun _ => 0) chol fz + (∑ i, Uni.Normal.logProb (fx i) (Real.log P.noiseStd) (y i)) / l * n

/-- `lower_bound` for the fed rows and the noise of the particles.  The log probability of `fx` is replaced by zeros.  (svgp.py 131–138;
variational/exclusive_kl.py 131–137; variational/base.py 177–183) -/
noncomputable def lowerBound {κ : Type} [Fintype κ] {nz K : ℕ} (P : Params κ nz) (chol : Fin nz → Fin nz → ℝ) (n : ℕ)
    (fed : List ((κ → ℝ) × ℝ)) (e : Fin K → (Fin nz → ℝ) × (Fin fed.length → ℝ)) : Option ℝ :=
  let fz := sampleFz P fun k => (e k).1
  (sampleFx P chol fz (fun i => fed[i].1) fun k => (e k).2).map fun fx =>
    (Grad.elboObjective (fun k => .const (logJoint P chol n (fun i => fed[i].2) (fz k) (fx k)))
      (fun k => .const (Num.mvnLogProb flags P.zMean P.zCovTril (fz k) + 0))).val

end ZhuSuan.Svgp
