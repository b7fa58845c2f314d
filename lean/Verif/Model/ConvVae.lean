import Mathlib.Logic.Equiv.Fin.Basic
import Verif.Model.Vae

/-!
# Convolutional variational autoencoder

`examples/variational_autoencoders/vae_conv.py`, with `conv2d_transpose` of `examples/utils/utils.py`: residual blocks of convolutions and of
transposed convolutions, the reshapes between vectors and images around them, and the lower bound of a batch.  Images are functions of row,
column and channel.  The variables are real numbers that the caller gives.  Not modelled: the optimizer, sessions, printing, saving of images
(the tiling of the saved images is in ExampleUtils), and `normalizer_fn`, which this example does not use.
-/

set_option autoImplicit false

namespace ZhuSuan.ConvVae

open ZhuSuan.Vae (Dense pixels logLik relu draw logNormals logPrior)

/-- An image, or the output of a layer for one image. -/
abbrev Image (h w c : ℕ) : Type := Fin h → Fin w → Fin c → ℝ

/-! ## Layers -/

/-- The number of zeros before the first entry of an axis with `padding="SAME"`: half of the zeros needed, rounded down.  (TensorFlow
primitive; vae_conv.py 41–50, 81; examples/utils/utils.py 96–98) -/
def padBefore (size kernel stride : ℕ) : ℕ := (((size + stride - 1) / stride - 1) * stride + kernel - size) / 2

/-- The entry `p` of an axis with `pad` zeros before it and zeros after it.  (TensorFlow primitive; vae_conv.py 41–50) -/
noncomputable def padded {n : ℕ} (pad : ℕ) (a : Fin n → ℝ) (p : ℕ) : ℝ := if h : pad ≤ p ∧ p - pad < n then a ⟨p - pad, h.2⟩ else 0

/-- The variables of `tf.layers.conv2d` with a kernel of size 3.  (TensorFlow primitive; vae_conv.py 41–50, 81) -/
structure Conv (cin cout : ℕ) where
  kernel : Fin 3 → Fin 3 → Fin cin → Fin cout → ℝ
  bias : Fin cout → ℝ

/-- `tf.nn.conv2d` with `padding="SAME"`, of one image.  (TensorFlow primitive; vae_conv.py 41–50) -/
noncomputable def conv2d {h w cin cout : ℕ} (stride : ℕ) (kernel : Fin 3 → Fin 3 → Fin cin → Fin cout → ℝ) (a : Image h w cin) :
    Image ((h + stride - 1) / stride) ((w + stride - 1) / stride) cout := fun i j o =>
  ∑ di : Fin 3, ∑ dj : Fin 3, ∑ c,
    padded (padBefore h 3 stride) (fun y => padded (padBefore w 3 stride) (fun x => a y x c) (j * stride + dj)) (i * stride + di) * kernel di dj c o

/-- `tf.layers.conv2d`, without activation.  (TensorFlow primitive; vae_conv.py 41–50) -/
noncomputable def Conv.apply {h w cin cout : ℕ} (stride : ℕ) (l : Conv cin cout) (a : Image h w cin) :
    Image ((h + stride - 1) / stride) ((w + stride - 1) / stride) cout := fun i j o => conv2d stride l.kernel a i j o + l.bias o

/-- The variables of `conv2d_transpose` with a kernel of size 3: the filters have the shape `[3, 3, out, in]`.  (examples/utils/utils.py 90–94, 101–103) -/
structure ConvT (cin cout : ℕ) where
  weights : Fin 3 → Fin 3 → Fin cout → Fin cin → ℝ
  biases : Fin cout → ℝ

/-- `tf.nn.conv2d_transpose` with `padding="SAME"`, its default, of one image: entry `(i, j)` of the input is spread over the window of the
output that a convolution reads at `(i, j)`.  (TensorFlow primitive; examples/utils/utils.py 96–98) -/
noncomputable def conv2dTranspose {cin cout : ℕ} (stride h w : ℕ) (weights : Fin 3 → Fin 3 → Fin cout → Fin cin → ℝ)
    (a : Image ((h + stride - 1) / stride) ((w + stride - 1) / stride) cin) : Image h w cout := fun y x o =>
  ∑ i : Fin ((h + stride - 1) / stride), ∑ j : Fin ((w + stride - 1) / stride), ∑ c, ∑ di : Fin 3, ∑ dj : Fin 3,
    if (i : ℕ) * stride + di = y + padBefore h 3 stride ∧ (j : ℕ) * stride + dj = x + padBefore w 3 stride then a i j c * weights di dj o c else 0

/-- `conv2d_transpose` with `activation_fn=None`.  (examples/utils/utils.py 73–113) -/
noncomputable def ConvT.apply {cin cout : ℕ} (stride h w : ℕ) (l : ConvT cin cout)
    (a : Image ((h + stride - 1) / stride) ((w + stride - 1) / stride) cin) : Image h w cout := fun y x o =>
  conv2dTranspose stride h w l.weights a y x o + l.biases o

/-- `tf.nn.relu` of an image.  (TensorFlow primitive; vae_conv.py 35, 42, 47, 52; examples/utils/utils.py 79, 110–111) -/
noncomputable def reluI {h w c : ℕ} (a : Image h w c) : Image h w c := fun y x o => max (a y x o) 0

/-- The same image with sizes that are equal: with stride 1 the size `(h + 1 - 1) / 1` of the output is `h`.  It has no
counterpart in the code.  (used for vae_conv.py 20–53) -/
def resize {h w h' w' c : ℕ} (hh : h = h') (hw : w = w') (a : Image h w c) : Image h' w' c := fun y x => a (y.cast hh.symm) (x.cast hw.symm)

/-! ## Residual blocks -/

theorem stride_one (h : ℕ) : (h + 1 - 1) / 1 = h := by simp

/-- `deconv_resnet_block` without `resize`, for images of size `h` times `w`.  (vae_conv.py 20–26, 35–36) -/
noncomputable def deconvBlock {c : ℕ} (h w : ℕ) (l1 l2 : ConvT c c) (a : Image h w c) : Image h w c :=
  let lx := reluI (l1.apply 1 h w (resize (stride_one h).symm (stride_one w).symm a))
  let lx := l2.apply 1 h w (resize (stride_one h).symm (stride_one w).symm lx)
  reluI (lx + a)

/-- `deconv_resnet_block` with `resize=True`, to the size `h` times `w`.  (vae_conv.py 27–36) -/
noncomputable def deconvBlockUp {cin cout : ℕ} (h w : ℕ) (l1 : ConvT cin cin) (l2 lr : ConvT cin cout)
    (a : Image ((h + 2 - 1) / 2) ((w + 2 - 1) / 2) cin) : Image h w cout :=
  let lx := reluI (l1.apply 1 ((h + 2 - 1) / 2) ((w + 2 - 1) / 2) (resize (stride_one _).symm (stride_one _).symm a))
  let lx := l2.apply 2 h w lx
  let residual := lr.apply 2 h w a
  reluI (lx + residual)

/-- `conv_resnet_block` without `resize`.  (vae_conv.py 39–44, 52–53) -/
noncomputable def convBlock {h w c : ℕ} (l1 l2 : Conv c c) (a : Image h w c) : Image h w c :=
  let lz := reluI (resize (stride_one h) (stride_one w) (l1.apply 1 a))
  let lz := resize (stride_one h) (stride_one w) (l2.apply 1 lz)
  reluI (lz + a)

/-- `conv_resnet_block` with `resize=True`.  (vae_conv.py 45–53) -/
noncomputable def convBlockDown {h w cin cout : ℕ} (l1 : Conv cin cout) (l2 : Conv cout cout) (lr : Conv cin cout) (a : Image h w cin) :
    Image ((h + 2 - 1) / 2) ((w + 2 - 1) / 2) cout :=
  let lz := reluI (l1.apply 2 a)
  let lz := resize (stride_one _) (stride_one _) (l2.apply 1 lz)
  let residual := lr.apply 2 a
  reluI (lz + residual)

/-! ## Reshapes -/

/-- `tf.reshape(a, [-1, h, w, c])` of a tensor of shape `[K, n, h * w * c]`: positions in row-major order stay the same.  (TensorFlow
primitive; vae_conv.py 62) -/
def toImages {K n h w c : ℕ} (a : Fin K → Fin n → Fin (h * w * c) → ℝ) (r : Fin (K * n)) : Image h w c := fun y x o =>
  let p : Fin (K * n * h * w * c) := finProdFinEquiv (finProdFinEquiv (finProdFinEquiv (r, y), x), o)
  let k := finProdFinEquiv.symm (p.cast (by ring) : Fin (K * n * (h * w * c)))
  let l := finProdFinEquiv.symm k.1
  a l.1 l.2 k.2

/-- `tf.reshape(a, [K, -1, h * w * c])` of a tensor of shape `[K * n, h, w, c]`.  (TensorFlow primitive; vae_conv.py 70) -/
def fromImages {K n h w c : ℕ} (a : Fin (K * n) → Image h w c) (k : Fin K) (i : Fin n) (d : Fin (h * w * c)) : ℝ :=
  let p : Fin (K * n * (h * w * c)) := finProdFinEquiv (finProdFinEquiv (k, i), d)
  let q := finProdFinEquiv.symm (p.cast (by ring) : Fin (K * n * h * w * c))
  let q' := finProdFinEquiv.symm q.1
  let q'' := finProdFinEquiv.symm q'.1
  a q''.1 q''.2 q'.2 q.2

/-! ## The networks -/

/-- The variables of `build_gen`; `nf` is 16.  (vae_conv.py 56–73) -/
structure Gen (zd nf : ℕ) where
  dense : Dense zd (7 * 7 * (nf * 2))
  b1 : ConvT (nf * 2) (nf * 2) × ConvT (nf * 2) (nf * 2)
  b2 : ConvT (nf * 2) (nf * 2) × ConvT (nf * 2) (nf * 2) × ConvT (nf * 2) (nf * 2)
  b3 : ConvT (nf * 2) (nf * 2) × ConvT (nf * 2) (nf * 2)
  b4 : ConvT (nf * 2) (nf * 2) × ConvT (nf * 2) nf × ConvT (nf * 2) nf
  b5 : ConvT nf nf × ConvT nf nf
  last : ConvT nf 1

/-- The blocks of `build_gen` for one image.  (vae_conv.py 63–69) -/
noncomputable def Gen.blocks {zd nf : ℕ} (g : Gen zd nf) (a : Image 7 7 (nf * 2)) : Image 28 28 1 :=
  let a := deconvBlock 7 7 g.b1.1 g.b1.2 a
  let a := deconvBlockUp 14 14 g.b2.1 g.b2.2.1 g.b2.2.2 a
  let a := deconvBlock 14 14 g.b3.1 g.b3.2 a
  let a := deconvBlockUp 28 28 g.b4.1 g.b4.2.1 g.b4.2.2 a
  let a := deconvBlock 28 28 g.b5.1 g.b5.2 a
  g.last.apply 1 28 28 (resize (stride_one 28).symm (stride_one 28).symm a)

/-- `x_logits` for all particles and images of a batch.  (vae_conv.py 61–70) -/
noncomputable def Gen.logits {zd nf K n : ℕ} (g : Gen zd nf) (z : Fin K → Fin n → Fin zd → ℝ) : Fin K → Fin n → Fin (28 * 28 * 1) → ℝ :=
  fromImages fun r => g.blocks (toImages (fun k i => relu (g.dense.apply (z k i))) r)

/-- The variables of `build_q_net`; `nf` is 16.  (vae_conv.py 76–93) -/
structure QNet (zd nf : ℕ) where
  first : Conv 1 nf
  b1 : Conv nf nf × Conv nf nf
  b2 : Conv nf (nf * 2) × Conv (nf * 2) (nf * 2) × Conv nf (nf * 2)
  b3 : Conv (nf * 2) (nf * 2) × Conv (nf * 2) (nf * 2)
  b4 : Conv (nf * 2) (nf * 2) × Conv (nf * 2) (nf * 2) × Conv (nf * 2) (nf * 2)
  b5 : Conv (nf * 2) (nf * 2) × Conv (nf * 2) (nf * 2)
  dense : Dense (7 * 7 * (nf * 2)) 500
  mean : Dense 500 zd
  logstd : Dense 500 zd

/-- The last hidden layer, for all images of a batch; the tensor of images has one axis less than those of `build_gen`, which `Fin 1` stands
for.  (vae_conv.py 79–88) -/
noncomputable def QNet.hidden {zd nf b : ℕ} (q : QNet zd nf) (x : Fin b → Fin (28 * 28 * 1) → Bool) : Fin b → Fin 500 → ℝ :=
  let images : Fin (1 * b) → Image 28 28 1 := toImages fun _ i d => 2 * pixels (x i) d - 1
  let block (a : Image 28 28 1) : Image 7 7 (nf * 2) :=
    let a : Image 28 28 nf := reluI (resize (stride_one 28) (stride_one 28) (q.first.apply 1 a))
    let a := convBlock q.b1.1 q.b1.2 a
    let a : Image 14 14 (nf * 2) := convBlockDown q.b2.1 q.b2.2.1 q.b2.2.2 a
    let a := convBlock q.b3.1 q.b3.2 a
    let a : Image 7 7 (nf * 2) := convBlockDown q.b4.1 q.b4.2.1 q.b4.2.2 a
    convBlock q.b5.1 q.b5.2 a
  fun i => relu (q.dense.apply (fromImages (K := 1) (fun r => block (images r)) 0 i))

/-- `z_mean` and `z_logstd`.  (vae_conv.py 89–90) -/
noncomputable def QNet.params {zd nf b : ℕ} (q : QNet zd nf) (x : Fin b → Fin (28 * 28 * 1) → Bool) (i : Fin b) : (Fin zd → ℝ) × (Fin zd → ℝ) :=
  (q.mean.apply (q.hidden x i), q.logstd.apply (q.hidden x i))

/-! ## The objective -/

section
variable {zd nf K b : ℕ}

/-- The samples of `z`; `e` are standard normal draws.  (vae_conv.py 91–92; distributions/univariate.py 161–172) -/
noncomputable def QNet.samples (q : QNet zd nf) (x : Fin b → Fin (28 * 28 * 1) → Bool) (e : Fin b → Fin K → Fin zd → ℝ) : Fin K → Fin b → Fin zd → ℝ :=
  fun k i => draw (q.params x i).1 (q.params x i).2 (e i k)

/-- `lower_bound` of a batch.  (vae_conv.py 120–123; variational/base.py 169–183) -/
noncomputable def lowerBound (g : Gen zd nf) (q : QNet zd nf) (x : Fin b → Fin (28 * 28 * 1) → Bool) (e : Fin b → Fin K → Fin zd → ℝ) : ℝ :=
  let z := q.samples x e
  (∑ i, (Grad.elboObjective (fun k => .const (logPrior (z k i) + logLik (g.logits z k i) (x i)))
    (fun k => .const (logNormals (q.params x i).1 (q.params x i).2 (z k i)))).val) / b

/-- `x = tf.cast(tf.random_uniform(tf.shape(x_input)) <= x_input, tf.int32)`.  (vae_conv.py 114) -/
noncomputable def binarize {xd : ℕ} (xInput u : Fin xd → ℝ) : Fin xd → Bool := fun d => decide (u d ≤ xInput d)

/-- `x_gen` for `n` images and one particle; `e` are the standard normal draws of `z`.  (vae_conv.py 59–60, 71, 129; distributions/univariate.py
161–172) -/
noncomputable def Gen.generate {n : ℕ} (g : Gen zd nf) (e : Fin n → Fin zd → ℝ) : Fin (1 * n) → Image 28 28 1 :=
  toImages fun k i d => Uni.sigmoid (g.logits (K := 1) (fun _ i j => Uni.Normal.sample 0 1 (e i j)) k i d)

end

end ZhuSuan.ConvVae
