import Verif.Model.Num
import Verif.Model.Shape
import Verif.Model.Vae

/-!
# The semi-supervised variational autoencoder

`examples/semi_supervised_vae/vae_ssl.py`: a model of binary images with a class and a normal latent vector, and an objective that adds the
lower bound of labeled images, the lower bound of unlabeled images with the class summed out, and the log probability of the labels under a
classifier.  There are `C + 1` classes.  Not modelled: the optimizer, the accuracy, sessions and printing.
-/

set_option autoImplicit false

namespace ZhuSuan.Ssl

open Vae Num

section
variable {zd C h1 h2 k1 k2 c1 c2 xd K n : ℕ}

/-- The variables of `build_gen`.  (vae_ssl.py 19–32) -/
structure Gen (zd C h1 h2 xd : ℕ) where
  lz : Dense zd h1
  ly : Dense C h1
  l2 : Dense h1 h2
  l3 : Dense h2 xd

/-- `x_logits` of one row.  (vae_ssl.py 24–30) -/
noncomputable def Gen.logits (g : Gen zd C h1 h2 xd) (z : Fin zd → ℝ) (y : Fin C) : Fin xd → ℝ :=
  g.l3.apply (relu (g.l2.apply (relu fun j => g.lz.apply z j + g.ly.apply (oneHot y) j)))

/-- The log probability of `y`, `bn.onehot_categorical("y", y_logits)` with `y_logits = tf.zeros([n, n_class])`.  (vae_ssl.py 25–26) -/
noncomputable def logPriorY (y : Fin (C + 1)) : ℝ := onehotLogProb (fun _ : Fin (C + 1) => (0 : ℝ)) (oneHot y)

/-- The log joint of one row and one particle.  (vae_ssl.py 23, 26, 31; variational/base.py 169–175) -/
noncomputable def Gen.logJoint (g : Gen zd (C + 1) h1 h2 xd) (x : Fin xd → Bool) (y : Fin (C + 1)) (z : Fin zd → ℝ) : ℝ :=
  logPrior z + logPriorY y + logLik (g.logits z y) x

/-- The variables of `qz_xy`.  (vae_ssl.py 35–45) -/
structure Qz (xd C k1 k2 zd : ℕ) where
  l1 : Dense (xd + C) k1
  l2 : Dense k1 k2
  lMean : Dense k2 zd
  lLogstd : Dense k2 zd

/-- The second hidden layer; `tf.concat([x, y], -1)` is the input.  (vae_ssl.py 38–40) -/
noncomputable def Qz.hidden (q : Qz xd C k1 k2 zd) (x : Fin xd → Bool) (y : Fin C) : Fin k2 → ℝ :=
  relu (q.l2.apply (relu (q.l1.apply (Fin.append (pixels x) (oneHot y)))))

/-- `z_mean`.  (vae_ssl.py 41) -/
noncomputable def Qz.mean (q : Qz xd C k1 k2 zd) (x : Fin xd → Bool) (y : Fin C) : Fin zd → ℝ := q.lMean.apply (q.hidden x y)

/-- `z_logstd`.  (vae_ssl.py 42) -/
noncomputable def Qz.logstd (q : Qz xd C k1 k2 zd) (x : Fin xd → Bool) (y : Fin C) : Fin zd → ℝ := q.lLogstd.apply (q.hidden x y)

/-- The variables of `qy_x`.  (vae_ssl.py 48–53) -/
structure Qy (xd k1 k2 C : ℕ) where
  l1 : Dense xd k1
  l2 : Dense k1 k2
  l3 : Dense k2 C

/-- `y_logits`.  (vae_ssl.py 50–52) -/
noncomputable def Qy.logits (q : Qy xd k1 k2 C) (x : Fin xd → ℝ) : Fin C → ℝ := q.l3.apply (relu (q.l2.apply (relu (q.l1.apply x))))

/-- `zs.variational.elbo(model, observed={"x": …, "y": …}, variational=variational, axis=0)` of one row, from the standard normal draws `e` of
the particles.  (vae_ssl.py 92–98, 112–116) -/
noncomputable def rowLb (g : Gen zd (C + 1) h1 h2 xd) (q : Qz xd (C + 1) k1 k2 zd) (x : Fin xd → Bool) (y : Fin (C + 1))
    (e : Fin K → Fin zd → ℝ) : ℝ :=
  (Grad.elboObjective (fun k => .const (g.logJoint x y (encode (q.mean x y) (q.logstd x y) [] (e k)).1))
    (fun k => .const (encode (q.mean x y) (q.logstd x y) [] (e k)).2)).val

/-- `tf.nn.softmax(…)`.  (TensorFlow primitive; vae_ssl.py 120) -/
noncomputable def softmax (l : Fin (C + 1) → ℝ) (c : Fin (C + 1)) : ℝ := Real.exp (l c) / ∑ j, Real.exp (l j)

/-- `qy_u` of one row.  (vae_ssl.py 120–121) -/
noncomputable def qyU (l : Fin (C + 1) → ℝ) (c : Fin (C + 1)) : ℝ := (softmax l c + 1e-8) / ∑ j, (softmax l j + 1e-8)

/-- Row `r` of `x_u`: `tf.reshape(tf.tile(x_unlabeled[:, None, ...], [1, n_class, 1]), [-1, x_dim])`.  (vae_ssl.py 110–111) -/
def xU {D : Type} (x : Fin n → D) (r : Fin (n * (C + 1))) : D := x r.divNat

/-- Row `r` of `y_u`: `tf.reshape(tf.tile(y_diag[None, ...], [n, 1, 1]), [-1, n_class])`.  (vae_ssl.py 108–109) -/
def yU (r : Fin (n * (C + 1))) : Fin (C + 1) := r.modNat

theorem row_lt (i : Fin n) (c : Fin (C + 1)) : (i : ℕ) * (C + 1) + c < n * (C + 1) :=
  calc (i : ℕ) * (C + 1) + c < i * (C + 1) + (C + 1) := by omega
    _ = (i + 1) * (C + 1) := by ring
    _ ≤ n * (C + 1) := Nat.mul_le_mul_right _ i.isLt

/-- Entry `i, c` of `tf.reshape(lb_z, [-1, n_class])`.  (vae_ssl.py 118) -/
def reshapeRow (lb : Fin (n * (C + 1)) → ℝ) (i : Fin n) (c : Fin (C + 1)) : ℝ := lb ⟨i * (C + 1) + c, row_lt i c⟩

/-- `unlabeled_lower_bound` when the shapes of the rows fit: `x` are the binary images, `xPh` the ones that are fed, and `e` the standard normal
draws of the particles of each row.  (vae_ssl.py 108–124) -/
noncomputable def unlabeledValue (g : Gen zd (C + 1) h1 h2 xd) (q : Qz xd (C + 1) k1 k2 zd) (qy : Qy xd c1 c2 (C + 1))
    (xPh : Fin n → Fin xd → ℝ) (x : Fin n → Fin xd → Bool) (e : Fin (n * (C + 1)) → Fin K → Fin zd → ℝ) : ℝ :=
  let lbZ := reshapeRow fun r => rowLb g q (xU x r) (yU r) (e r)
  (∑ i, ∑ c, qyU (qy.logits (xPh i)) c * (lbZ i c - Real.log (qyU (qy.logits (xPh i)) c))) / n

/-- `unlabeled_lower_bound`; `none` is the error of TensorFlow when the log probabilities of `z` and `y` combine the parameters of the model,
which have `n` rows, with values that have `n * n_class` rows.  (vae_ssl.py 22–26, 108–124) -/
noncomputable def unlabeledBound (g : Gen zd (C + 1) h1 h2 xd) (q : Qz xd (C + 1) k1 k2 zd) (qy : Qy xd c1 c2 (C + 1))
    (xPh : Fin n → Fin xd → ℝ) (x : Fin n → Fin xd → Bool) (e : Fin (n * (C + 1)) → Fin K → Fin zd → ℝ) : Option ℝ := do
  let _ ← Shape.bcast [n, zd] [K, n * (C + 1), zd]
  let _ ← Shape.bcast [n, C + 1] [n * (C + 1), C + 1]
  pure (unlabeledValue g q qy xPh x e)

/-- `labeled_lower_bound`.  (vae_ssl.py 94–98) -/
noncomputable def labeledBound (g : Gen zd (C + 1) h1 h2 xd) (q : Qz xd (C + 1) k1 k2 zd) (x : Fin n → Fin xd → Bool) (y : Fin n → Fin (C + 1))
    (e : Fin n → Fin K → Fin zd → ℝ) : ℝ := (∑ i, rowLb g q (x i) (y i) (e i)) / n

/-- `classifier_cost`.  (vae_ssl.py 127, 133–135) -/
noncomputable def classifierCost (qy : Qy xd c1 c2 (C + 1)) (beta : ℝ) (x : Fin n → Fin xd → Bool) (y : Fin n → Fin (C + 1)) : ℝ :=
  -beta * ((∑ i, onehotLogProb (qy.logits (pixels (x i))) (oneHot (y i))) / n)

/-- `cost`.  (vae_ssl.py 138–139) -/
noncomputable def cost (labeled unlabeled classifier : ℝ) : ℝ := -(labeled + unlabeled - classifier) / 2

/-- `x_labeled[labeled_indices]` and `t_labeled[labeled_indices]`.  (vae_ssl.py 153–156) -/
def pick {D : Type} {m b : ℕ} (a : Fin m → D) (indices : Fin b → Fin m) : Fin b → D := fun j => a (indices j)

end

end ZhuSuan.Ssl
