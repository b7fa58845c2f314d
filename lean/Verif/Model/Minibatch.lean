import Mathlib.Algebra.BigOperators.Group.List.Basic
import Mathlib.Algebra.Order.Floor.Semiring
import Mathlib.Data.List.OfFn
import Mathlib.Data.Real.Archimedean
import Mathlib.Logic.Equiv.Defs

/-!
# Training loops over minibatches

The loops of the examples that run a sampler or an optimizer on slices of shuffled data:
`examples/bayesian_neural_nets/bnn_sgmcmc.py` and `bnn_vi.py`, `examples/gaussian_process/svgp.py`,
`examples/probabilistic_matrix_factorization/pmf_hmc.py`, `examples/variational_autoencoders/vae.py` and
`examples/bayesian_neural_nets/variational_dropout.py`.  Rows of an array are values of any type; the model has one particle (the
particles of the examples do not interact).
-/

set_option autoImplicit false

namespace ZhuSuan.Minibatch

/-- `(n_train - 1) // batch_size + 1` (bnn_sgmcmc.py 110, bnn_vi.py 110), with Python's floor division. -/
def itersSub (n b : ℕ) : ℕ := (((n : ℤ) - 1) / b + 1).toNat

/-- `int(np.ceil(n / float(batch_size)))` (svgp.py 168), in real arithmetic. -/
noncomputable def itersCeil (n b : ℕ) : ℕ := ⌈(n : ℝ) / b⌉₊

/-- `(n + batch_size - 1) // batch_size` (pmf_hmc.py 217). -/
def itersUp (n b : ℕ) : ℕ := (n + b - 1) / b

/-- `n // batch_size` (vae.py 83, 87, likewise in the other scripts for autoencoders and adversarial nets). -/
def itersDown (n b : ℕ) : ℕ := n / b

/-- `int(np.floor(n / float(batch_size)))` (variational_dropout.py 74), in real arithmetic. -/
noncomputable def itersFloor (n b : ℕ) : ℕ := ⌊(n : ℝ) / b⌋₊

/-- The slice `a[i:j]` of a list, for `0 ≤ i ≤ j`. -/
def slice {D : Type} (a : List D) (i j : ℕ) : List D := (a.take j).drop i

/-- The rows `a[t * b:(t + 1) * b]` of an array with `n` rows (bnn_sgmcmc.py 123–124, bnn_vi.py 122–123, svgp.py 181–182,
192–193, vae.py 99, 113–114, pmf_hmc.py 219–221). -/
def batch {D : Type} {n : ℕ} (a : Fin n → D) (b t : ℕ) : List D := slice (List.ofFn a) (t * b) ((t + 1) * b)

/-- The arrays `x_train` and `y_train`. -/
structure Arrays (n : ℕ) (X Y : Type) where
  x : Fin n → X
  y : Fin n → Y

/-- `x_train = x_train[perm, :]; y_train = y_train[perm]` (bnn_sgmcmc.py 120–121, bnn_vi.py 118–119, svgp.py 176–177).
`np.random.permutation` and the shuffled `indices` are permutations of the row numbers. -/
def Arrays.permute {n : ℕ} {X Y : Type} (s : Arrays n X Y) (perm : Equiv.Perm (Fin n)) : Arrays n X Y :=
  ⟨fun i => s.x (perm i), fun i => s.y (perm i)⟩

/-- The arrays after epochs with the given permutations (bnn_sgmcmc.py 118–121). -/
def Arrays.epochs {n : ℕ} {X Y : Type} (s : Arrays n X Y) (perms : List (Equiv.Perm (Fin n))) : Arrays n X Y :=
  perms.foldl Arrays.permute s

/-- What the model sees in iteration `t`: `feed_dict={x: x_batch, y: y_batch}` (bnn_sgmcmc.py 122–126).  The likelihood pairs the
rows of the two arrays. -/
def Arrays.feed {n : ℕ} {X Y : Type} (s : Arrays n X Y) (b t : ℕ) : List (X × Y) := (batch s.x b t).zip (batch s.y b t)

/-- `tf.reduce_mean` of a list of values. -/
noncomputable def mean (a : List ℝ) : ℝ := a.sum / a.length

/-- `log_joint` (bnn_sgmcmc.py 74–77, bnn_vi.py 83–86, svgp.py 125–127): the log prior and the mean of the log likelihoods of the
fed rows times the number of rows of the training data. -/
noncomputable def logJoint {D W : Type} (n : ℕ) (prior : W → ℝ) (lik : D → W → ℝ) (fed : List D) (w : W) : ℝ :=
  prior w + mean (fed.map fun d => lik d w) * n

/-- The mean of the values of the batches that a script prints, `np.mean(lbs)` (vae.py 107, 127–129; svgp.py 185, 198). -/
noncomputable def meanOfMeans {D : Type} {n : ℕ} (a : Fin n → D) (b iters : ℕ) (φ : D → ℝ) : ℝ :=
  mean ((List.range iters).map fun t => mean ((batch a b t).map φ))

end ZhuSuan.Minibatch
