import Verif.Model.ConvVae
import Verif.Props.Vae

/-!
# C106: the convolutional variational autoencoder
-/

set_option autoImplicit false

open MeasureTheory ProbabilityTheory InformationTheory

namespace ZhuSuan.ConvVae

open ZhuSuan.Minibatch hiding logLik
open ZhuSuan.Vae (Dense pixels logLik relu draw logNormals logPrior encode normals uniforms imageProb logistic lik modelProb posterior Lik)

/-! ## Reshapes and rows -/

section
variable {K n h w c : ℕ}

theorem toImages_row (a : Fin K → Fin n → Fin (h * w * c) → ℝ) (k : Fin K) (i : Fin n) (y : Fin h) (x : Fin w) (o : Fin c) :
    toImages a (finProdFinEquiv (k, i)) y x o = a k i (finProdFinEquiv (finProdFinEquiv (y, x), o)) := by
  have e : ((finProdFinEquiv (finProdFinEquiv (finProdFinEquiv (finProdFinEquiv (k, i), y), x), o) : Fin (K * n * h * w * c)).cast (by ring) :
      Fin (K * n * (h * w * c))) = finProdFinEquiv (finProdFinEquiv (k, i), finProdFinEquiv (finProdFinEquiv (y, x), o)) := by
    apply Fin.ext
    simp [finProdFinEquiv]
    ring
  simp only [toImages, e, Equiv.symm_apply_apply]

theorem fromImages_row (a : Fin (K * n) → Image h w c) (k : Fin K) (i : Fin n) (y : Fin h) (x : Fin w) (o : Fin c) :
    fromImages a k i (finProdFinEquiv (finProdFinEquiv (y, x), o)) = a (finProdFinEquiv (k, i)) y x o := by
  have e : ((finProdFinEquiv (finProdFinEquiv (k, i), finProdFinEquiv (finProdFinEquiv (y, x), o)) : Fin (K * n * (h * w * c))).cast (by ring) :
      Fin (K * n * h * w * c)) = finProdFinEquiv (finProdFinEquiv (finProdFinEquiv (finProdFinEquiv (k, i), y), x), o) := by
    apply Fin.ext
    simp [finProdFinEquiv]
    ring
  simp only [fromImages, e, Equiv.symm_apply_apply]

/-- A vector of pixels as an image. -/
def image (a : Fin (h * w * c) → ℝ) : Image h w c := fun y x o => a (finProdFinEquiv (finProdFinEquiv (y, x), o))

/-- An image as a vector of pixels. -/
def vector (a : Image h w c) : Fin (h * w * c) → ℝ := fun d =>
  let q := finProdFinEquiv.symm d
  let q' := finProdFinEquiv.symm q.1
  a q'.1 q'.2 q.2

theorem toImages_image (a : Fin K → Fin n → Fin (h * w * c) → ℝ) (k : Fin K) (i : Fin n) : toImages a (finProdFinEquiv (k, i)) = image (a k i) := by
  funext y x o
  exact toImages_row a k i y x o

theorem fromImages_vector (a : Fin (K * n) → Image h w c) (k : Fin K) (i : Fin n) : fromImages a k i = vector (a (finProdFinEquiv (k, i))) := by
  funext d
  obtain ⟨⟨p, o⟩, rfl⟩ := finProdFinEquiv.surjective d
  obtain ⟨⟨y, x⟩, rfl⟩ := finProdFinEquiv.surjective p
  rw [fromImages_row]
  simp [vector]

end

section
variable {zd nf K b : ℕ}

/-- The pixel log odds of the decoder for one latent vector: one particle and one image. -/
noncomputable def rowLogits (g : Gen zd nf) (z : Fin zd → ℝ) : Fin (28 * 28 * 1) → ℝ := g.logits (K := 1) (n := 1) (fun _ _ => z) 0 0

theorem logits_eq (g : Gen zd nf) (z : Fin K → Fin b → Fin zd → ℝ) (k : Fin K) (i : Fin b) :
    g.logits z k i = vector (g.blocks (image (relu (g.dense.apply (z k i))))) := by
  rw [Gen.logits, fromImages_vector, toImages_image]

/-- **C106.** The reshapes around the convolutions keep particles and images apart and in order: the log odds of a particle of an image are those
that the decoder gives for its latent vector alone, and the parameters of the encoder for an image are those for a batch of this image alone. -/
theorem C106_rows (g : Gen zd nf) (z : Fin K → Fin b → Fin zd → ℝ) (q : QNet zd nf) (x : Fin b → Fin (28 * 28 * 1) → Bool) (k : Fin K) (i : Fin b) :
    g.logits z k i = g.logits (K := 1) (n := 1) (fun _ _ => z k i) 0 0 ∧ q.params x i = q.params (b := 1) (fun _ => x i) 0 := by
  constructor
  · rw [logits_eq, logits_eq]
  · have e : ∀ {b : ℕ} (x : Fin b → Fin (28 * 28 * 1) → Bool) (i : Fin b), q.hidden x i = relu (q.dense.apply (vector ((fun a : Image 28 28 1 =>
        convBlock q.b5.1 q.b5.2 (convBlockDown q.b4.1 q.b4.2.1 q.b4.2.2 (convBlock (h := 14) (w := 14) q.b3.1 q.b3.2 (convBlockDown q.b2.1 q.b2.2.1
          q.b2.2.2 (convBlock q.b1.1 q.b1.2 (reluI (resize (stride_one 28) (stride_one 28) (q.first.apply 1 a)))))))) (image fun d =>
            2 * pixels (x i) d - 1)) : Fin (7 * 7 * (nf * 2)) → ℝ)) := by
      intro b x i
      simp only [QNet.hidden]
      rw [fromImages_vector, toImages_image]
    simp only [QNet.params, e]

/-! ## Convolutions -/

end

section
variable {h w cin cout : ℕ}

theorem padded_sum {n : ℕ} (pad : ℕ) (a : Fin n → ℝ) (p : ℕ) : padded pad a p = ∑ y : Fin n, if p = y + pad then a y else 0 := by
  unfold padded
  split
  · rename_i hp
    rw [Finset.sum_eq_single (⟨p - pad, hp.2⟩ : Fin n)]
    · rw [if_pos (by simp; omega)]
    · intro y _ hy
      refine if_neg fun h => hy (Fin.ext ?_)
      simp; omega
    · simp
  · rename_i hp
    refine (Finset.sum_eq_zero fun y _ => if_neg fun h => hp ⟨by omega, by have := y.2; omega⟩).symm

theorem sum_swap {A B C D E F : Type} [Fintype A] [Fintype B] [Fintype C] [Fintype D] [Fintype E] [Fintype F] (G : A → B → C → D → E → F → ℝ) :
    ∑ o, ∑ i, ∑ j, ∑ c, ∑ di, ∑ dj, G o i j c di dj = ∑ i, ∑ j, ∑ c, ∑ di, ∑ dj, ∑ o, G o i j c di dj := by
  rw [Finset.sum_comm]
  refine Finset.sum_congr rfl fun i _ => ?_
  rw [Finset.sum_comm]
  refine Finset.sum_congr rfl fun j _ => ?_
  rw [Finset.sum_comm]
  refine Finset.sum_congr rfl fun c _ => ?_
  rw [Finset.sum_comm]
  refine Finset.sum_congr rfl fun di _ => ?_
  rw [Finset.sum_comm]

/-- **C106.** The transposed convolution is the transpose of the convolution with the same filters, for all sizes and strides. -/
theorem C106_transpose (stride : ℕ) (f : Fin 3 → Fin 3 → Fin cout → Fin cin → ℝ) (a : Image h w cout)
    (d : Image ((h + stride - 1) / stride) ((w + stride - 1) / stride) cin) :
    ∑ y, ∑ x, ∑ o, a y x o * conv2dTranspose stride h w f d y x o = ∑ i, ∑ j, ∑ c, conv2d stride f a i j c * d i j c := by
  have e : ∀ i j c, conv2d stride f a i j c * d i j c = ∑ di : Fin 3, ∑ dj : Fin 3, ∑ y : Fin h, ∑ x : Fin w, ∑ o,
      if (i : ℕ) * stride + di = y + padBefore h 3 stride ∧ (j : ℕ) * stride + dj = x + padBefore w 3 stride then
        a y x o * (d i j c * f di dj o c) else 0 := by
    intro i j c
    simp only [conv2d, Finset.sum_mul, padded_sum]
    refine Finset.sum_congr rfl fun di _ => Finset.sum_congr rfl fun dj _ => ?_
    rw [Finset.sum_comm]
    refine Finset.sum_congr rfl fun y _ => ?_
    by_cases hy : (i : ℕ) * stride + di = y + padBefore h 3 stride
    · simp only [hy, if_true, true_and, Finset.sum_mul]
      rw [Finset.sum_comm]
      refine Finset.sum_congr rfl fun x _ => Finset.sum_congr rfl fun o _ => ?_
      split <;> ring
    · simp [hy]
  simp only [e, conv2dTranspose, Finset.mul_sum, mul_ite, mul_zero]
  exact (Finset.sum_congr rfl fun y _ => (Finset.sum_congr rfl fun x _ => sum_swap _).trans (sum_swap _)).trans (sum_swap _)

/-- The pixel at a position, zero outside of the image. -/
noncomputable def pixelAt (a : Image h w cin) (y x : ℤ) (c : Fin cin) : ℝ :=
  if hyx : (0 ≤ y ∧ y < h) ∧ 0 ≤ x ∧ x < w then a ⟨y.toNat, by omega⟩ ⟨x.toNat, by omega⟩ c else 0

theorem padded_pixelAt (a : Image h w cin) (c : Fin cin) (pad pad' p q : ℕ) (y x : ℤ) (hy : y = p - pad) (hx : x = q - pad') :
    padded pad (fun y => padded pad' (fun x => a y x c) q) p = pixelAt a y x c := by
  unfold padded pixelAt
  by_cases h1 : pad ≤ p ∧ p - pad < h
  · by_cases h2 : pad' ≤ q ∧ q - pad' < w
    · have h3 : (0 ≤ y ∧ y < h) ∧ 0 ≤ x ∧ x < w := by omega
      rw [dif_pos h1]
      dsimp only
      rw [dif_pos h2, dif_pos h3]
      have e1 : (⟨p - pad, h1.2⟩ : Fin h) = ⟨y.toNat, by omega⟩ := Fin.ext (by dsimp only; omega)
      have e2 : (⟨q - pad', h2.2⟩ : Fin w) = ⟨x.toNat, by omega⟩ := Fin.ext (by dsimp only; omega)
      rw [e1, e2]
    · rw [dif_pos h1]
      dsimp only
      rw [dif_neg h2, dif_neg (by omega)]
  · rw [dif_neg h1, dif_neg (by omega)]

/-- **C106.** With stride 1 an output reads the window of 3 times 3 pixels around it. -/
theorem C106_window (f : Fin 3 → Fin 3 → Fin cin → Fin cout → ℝ) (a : Image h w cin) (i : Fin ((h + 1 - 1) / 1)) (j : Fin ((w + 1 - 1) / 1))
    (o : Fin cout) :
    conv2d 1 f a i j o = ∑ di : Fin 3, ∑ dj : Fin 3, ∑ c, pixelAt a (i + di - 1) (j + dj - 1) c * f di dj c o := by
  have hi : 0 < h := by have := i.2; simp at this; omega
  have hj : 0 < w := by have := j.2; simp at this; omega
  have p : ∀ {m : ℕ}, 0 < m → padBefore m 3 1 = 1 := fun {m} hm => by simp [padBefore]; omega
  simp only [conv2d, p hi, p hj]
  refine Finset.sum_congr rfl fun di _ => Finset.sum_congr rfl fun dj _ => Finset.sum_congr rfl fun c _ => ?_
  rw [padded_pixelAt a c 1 1 _ _ (i + di - 1) (j + dj - 1) (by push_cast; ring) (by push_cast; ring)]

/-- **C106.** With stride 2 and an image of even size it reads three pixels from twice its position on. -/
theorem C106_window_down (f : Fin 3 → Fin 3 → Fin cin → Fin cout → ℝ) (a : Image (2 * h) (2 * w) cin) (i : Fin ((2 * h + 2 - 1) / 2))
    (j : Fin ((2 * w + 2 - 1) / 2)) (o : Fin cout) :
    conv2d 2 f a i j o = ∑ di : Fin 3, ∑ dj : Fin 3, ∑ c, pixelAt a (2 * i + di) (2 * j + dj) c * f di dj c o := by
  have hi : 0 < h := by have := i.2; omega
  have hj : 0 < w := by have := j.2; omega
  have p : ∀ {m : ℕ}, 0 < m → padBefore (2 * m) 3 2 = 0 := fun {m} hm => by
    have : (2 * m + 2 - 1) / 2 = m := by omega
    rw [padBefore, this]
    omega
  simp only [conv2d, p hi, p hj]
  refine Finset.sum_congr rfl fun di _ => Finset.sum_congr rfl fun dj _ => Finset.sum_congr rfl fun c _ => ?_
  rw [padded_pixelAt a c 0 0 _ _ (2 * i + di) (2 * j + dj) (by push_cast; ring) (by push_cast; ring)]

theorem pixelAt_sum (a : Image h w cin) (y x : ℤ) (c : Fin cin) :
    pixelAt a y x c = ∑ i : Fin h, ∑ j : Fin w, if (i : ℤ) = y ∧ (j : ℤ) = x then a i j c else 0 := by
  unfold pixelAt
  split
  · rename_i hp
    have h1 : y.toNat < h := by omega
    have h2 : x.toNat < w := by omega
    rw [Finset.sum_eq_single (⟨y.toNat, h1⟩ : Fin h), Finset.sum_eq_single (⟨x.toNat, h2⟩ : Fin w), if_pos ⟨by dsimp only; omega, by dsimp only; omega⟩]
    · exact fun j _ hj => if_neg fun h => hj (Fin.ext (by dsimp only; omega))
    · simp
    · exact fun i _ hi => Finset.sum_eq_zero fun j _ => if_neg fun h => hi (Fin.ext (by dsimp only; omega))
    · simp
  · rename_i hp
    exact (Finset.sum_eq_zero fun i _ => Finset.sum_eq_zero fun j _ => if_neg fun h => hp (by have := i.2; have := j.2; omega)).symm

theorem sum_swap5 {A B C D E : Type} [Fintype A] [Fintype B] [Fintype C] [Fintype D] [Fintype E] (G : A → B → C → D → E → ℝ) :
    ∑ i, ∑ j, ∑ c, ∑ di, ∑ dj, G i j c di dj = ∑ di, ∑ dj, ∑ c, ∑ i, ∑ j, G i j c di dj := by
  have h1 : ∀ i, ∑ j, ∑ c, ∑ di, ∑ dj, G i j c di dj = ∑ di, ∑ dj, ∑ c, ∑ j, G i j c di dj := fun i => by
    have h2 : ∀ j, ∑ c, ∑ di, ∑ dj, G i j c di dj = ∑ di, ∑ dj, ∑ c, G i j c di dj := fun j => by
      rw [Finset.sum_comm]
      exact Finset.sum_congr rfl fun di _ => Finset.sum_comm
    rw [Finset.sum_congr rfl fun j _ => h2 j, Finset.sum_comm]
    refine Finset.sum_congr rfl fun di _ => ?_
    rw [Finset.sum_comm]
    exact Finset.sum_congr rfl fun dj _ => Finset.sum_comm
  rw [Finset.sum_congr rfl fun i _ => h1 i, Finset.sum_comm]
  refine Finset.sum_congr rfl fun di _ => ?_
  rw [Finset.sum_comm]
  refine Finset.sum_congr rfl fun dj _ => ?_
  rw [Finset.sum_comm]

/-- **C106.** With stride 1 the transposed convolution is a convolution with the filters turned by half a turn. -/
theorem C106_window_transpose (f : Fin 3 → Fin 3 → Fin cout → Fin cin → ℝ) (a : Image ((h + 1 - 1) / 1) ((w + 1 - 1) / 1) cin) (y : Fin h) (x : Fin w)
    (o : Fin cout) :
    conv2dTranspose 1 h w f a y x o = ∑ di : Fin 3, ∑ dj : Fin 3, ∑ c, pixelAt a (y + 1 - di) (x + 1 - dj) c * f di dj o c := by
  have hi : 0 < h := y.pos
  have hj : 0 < w := x.pos
  have p : ∀ {m : ℕ}, 0 < m → padBefore m 3 1 = 1 := fun {m} hm => by simp [padBefore]; omega
  rw [conv2dTranspose, sum_swap5]
  refine Finset.sum_congr rfl fun di _ => Finset.sum_congr rfl fun dj _ => Finset.sum_congr rfl fun c _ => ?_
  rw [pixelAt_sum, Finset.sum_mul]
  refine Finset.sum_congr rfl fun i _ => ?_
  rw [Finset.sum_mul]
  refine Finset.sum_congr rfl fun j _ => ?_
  rw [p hi, p hj, ite_mul, zero_mul]
  exact if_congr (by omega) rfl rfl

/-- **C106.** With stride 2 and an output of even size, an output reads the pixels at half of its position minus that in the filter, where this
is a whole number. -/
theorem C106_window_up (f : Fin 3 → Fin 3 → Fin cout → Fin cin → ℝ) (a : Image ((2 * h + 2 - 1) / 2) ((2 * w + 2 - 1) / 2) cin) (y : Fin (2 * h))
    (x : Fin (2 * w)) (o : Fin cout) :
    conv2dTranspose 2 (2 * h) (2 * w) f a y x o = ∑ di : Fin 3, ∑ dj : Fin 3, ∑ c,
      if (2 : ℤ) ∣ y - di ∧ (2 : ℤ) ∣ x - dj then pixelAt a ((y - di) / 2) ((x - dj) / 2) c * f di dj o c else 0 := by
  have hi : 0 < h := by have := y.2; omega
  have hj : 0 < w := by have := x.2; omega
  have p : ∀ {m : ℕ}, 0 < m → padBefore (2 * m) 3 2 = 0 := fun {m} hm => by
    have : (2 * m + 2 - 1) / 2 = m := by omega
    rw [padBefore, this]
    omega
  rw [conv2dTranspose, sum_swap5]
  refine Finset.sum_congr rfl fun di _ => Finset.sum_congr rfl fun dj _ => Finset.sum_congr rfl fun c _ => ?_
  rw [p hi, p hj]
  by_cases hd : (2 : ℤ) ∣ y - di ∧ (2 : ℤ) ∣ x - dj
  · rw [if_pos hd, pixelAt_sum, Finset.sum_mul]
    refine Finset.sum_congr rfl fun i _ => ?_
    rw [Finset.sum_mul]
    refine Finset.sum_congr rfl fun j _ => ?_
    rw [ite_mul, zero_mul]
    exact if_congr (by omega) rfl rfl
  · rw [if_neg hd]
    exact Finset.sum_eq_zero fun i _ => Finset.sum_eq_zero fun j _ => if_neg fun h => hd (by omega)

/-! ## Residual blocks -/

theorem conv_zero (stride : ℕ) (a : Image h w cin) : (⟨0, 0⟩ : Conv cin cout).apply stride a = 0 := by
  funext i j o
  simp [Conv.apply, conv2d]

theorem convT_zero (stride : ℕ) (a : Image ((h + stride - 1) / stride) ((w + stride - 1) / stride) cin) :
    (⟨0, 0⟩ : ConvT cin cout).apply stride h w a = 0 := by
  funext i j o
  simp [ConvT.apply, conv2dTranspose]

/-- **C106.** Residual blocks: with a last layer of zeros a block returns nonnegative images, as those that every other block returns, unchanged,
whatever its first layer is; when it changes the size it returns the residual layer, rectified. -/
theorem C106_residual {c : ℕ} (l1 l1' : ConvT c c) (m1 : Conv c c) (m1' : Conv cin cout) (lr : ConvT c cout) (mr : Conv cin cout) (a : Image h w c)
    (a' : Image ((h + 2 - 1) / 2) ((w + 2 - 1) / 2) c) (a'' : Image h w cin) (ha : 0 ≤ a) :
    deconvBlock h w l1 ⟨0, 0⟩ a = a ∧ convBlock m1 ⟨0, 0⟩ a = a ∧ deconvBlockUp h w l1' ⟨0, 0⟩ lr a' = reluI (lr.apply 2 h w a') ∧
    convBlockDown m1' ⟨0, 0⟩ mr a'' = reluI (mr.apply 2 a'') := by
  have hr : reluI a = a := by
    funext y x o
    exact max_eq_left (ha y x o)
  have e : ∀ {h w h' w' c : ℕ} (hh : h = h') (hw : w = w'), resize (c := c) hh hw 0 = 0 := fun _ _ => rfl
  refine ⟨?_, ?_, ?_, ?_⟩
  · simp only [deconvBlock, convT_zero, zero_add, hr]
  · simp only [convBlock, conv_zero, e, zero_add, hr]
  · simp only [deconvBlockUp, convT_zero, zero_add]
  · simp only [convBlockDown, conv_zero, e, zero_add]

/-- **C106.** What a block returns is nonnegative, and where the sum of both branches is negative it is zero: the sum is rectified after the
addition, not before. -/
theorem C106_rectified {c : ℕ} (l1 l2 : ConvT c c) (a : Image h w c) (y : Fin h) (x : Fin w) (o : Fin c) :
    0 ≤ deconvBlock h w l1 l2 a y x o ∧
    (0 < deconvBlock h w l1 l2 a y x o → deconvBlock h w l1 l2 a y x o - a y x o = (l2.apply 1 h w (resize (stride_one h).symm (stride_one w).symm
      (fun y x o => max (l1.apply 1 h w (resize (stride_one h).symm (stride_one w).symm a) y x o) 0))) y x o) := by
  refine ⟨le_max_right _ _, fun hp => ?_⟩
  have h1 : deconvBlock h w l1 l2 a y x o = max ((l2.apply 1 h w (resize (stride_one h).symm (stride_one w).symm
      (reluI (l1.apply 1 h w (resize (stride_one h).symm (stride_one w).symm a))))) y x o + a y x o) 0 := rfl
  rw [h1] at hp ⊢
  rcases le_total ((l2.apply 1 h w (resize (stride_one h).symm (stride_one w).symm
      (reluI (l1.apply 1 h w (resize (stride_one h).symm (stride_one w).symm a))))) y x o + a y x o) 0 with hc | hc
  · rw [max_eq_right hc] at hp
    exact absurd hp (lt_irrefl _)
  · rw [max_eq_left hc]
    simp only [add_sub_cancel_right]
    rfl

/-- **C106.** The same for the blocks of the encoder, in terms of the windows that the layers read. -/
theorem C106_rectified_conv {c : ℕ} (l1 l2 : Conv c c) (a : Image h w c) (y : Fin h) (x : Fin w) (o : Fin c) :
    0 ≤ convBlock l1 l2 a y x o ∧
    (0 < convBlock l1 l2 a y x o → convBlock l1 l2 a y x o - a y x o = ∑ di : Fin 3, ∑ dj : Fin 3, ∑ c',
      pixelAt (fun (y : Fin h) (x : Fin w) c' => max (∑ di : Fin 3, ∑ dj : Fin 3, ∑ c'', pixelAt a (y + di - 1) (x + dj - 1) c'' * l1.kernel di dj c'' c' +
        l1.bias c') 0) (y + di - 1) (x + dj - 1) c' * l2.kernel di dj c' o + l2.bias o) := by
  refine ⟨le_max_right _ _, fun hp => ?_⟩
  have e : ∀ (l : Conv c c) (a : Image h w c), resize (stride_one h) (stride_one w) (l.apply 1 a) = fun (y : Fin h) (x : Fin w) o =>
      ∑ di : Fin 3, ∑ dj : Fin 3, ∑ c', pixelAt a (y + di - 1) (x + dj - 1) c' * l.kernel di dj c' o + l.bias o := fun l a => by
    funext y x o
    simp only [resize, Conv.apply, C106_window, Fin.val_cast]
  have h1 : convBlock l1 l2 a y x o = max (resize (stride_one h) (stride_one w) (l2.apply 1 (reluI (resize (stride_one h) (stride_one w)
      (l1.apply 1 a)))) y x o + a y x o) 0 := rfl
  rw [h1] at hp ⊢
  rw [e, e] at hp ⊢
  rw [max_eq_left (le_of_lt (by simpa using hp)), add_sub_cancel_right]
  rfl

end

/-! ## Continuity and growth of the decoder -/

/-- Continuous and of at most linear growth. -/
def Reg {E F : Type} [NormedAddCommGroup E] [NormedAddCommGroup F] (f : E → F) : Prop := Continuous f ∧ ∃ c : ℝ, 0 ≤ c ∧ ∀ x, ‖f x‖ ≤ c * (1 + ‖x‖)

section
variable {E F G : Type} [NormedAddCommGroup E] [NormedAddCommGroup F] [NormedAddCommGroup G]

theorem Reg.comp {g : F → G} {f : E → F} (hg : Reg g) (hf : Reg f) : Reg fun x => g (f x) := by
  obtain ⟨h1, c, hc, h2⟩ := hg
  obtain ⟨h3, d, hd, h4⟩ := hf
  refine ⟨h1.comp h3, c * (1 + d), by positivity, fun x => (h2 _).trans ?_⟩
  rw [mul_assoc]
  refine mul_le_mul_of_nonneg_left ?_ hc
  have := h4 x
  nlinarith [norm_nonneg x]

theorem Reg.add {f g : E → F} (hf : Reg f) (hg : Reg g) : Reg fun x => f x + g x := by
  obtain ⟨h1, c, hc, h2⟩ := hf
  obtain ⟨h3, d, hd, h4⟩ := hg
  refine ⟨h1.add h3, c + d, by positivity, fun x => (norm_add_le _ _).trans ?_⟩
  have := h2 x
  have := h4 x
  linarith

theorem Reg.id : Reg fun x : E => x := ⟨continuous_id, 1, zero_le_one, fun x => by linarith⟩

theorem Reg.const (v : F) : Reg fun _ : E => v := ⟨continuous_const, ‖v‖, norm_nonneg _, fun x => by nlinarith [norm_nonneg x, norm_nonneg v]⟩

theorem Reg.linear [NormedSpace ℝ E] [NormedSpace ℝ F] [FiniteDimensional ℝ E] (f : E → F) (h1 : ∀ x y, f (x + y) = f x + f y)
    (h2 : ∀ (r : ℝ) x, f (r • x) = r • f x) : Reg f := by
  let L : E →L[ℝ] F := LinearMap.toContinuousLinearMap ⟨⟨f, h1⟩, h2⟩
  refine ⟨L.continuous, ‖L‖, norm_nonneg _, fun x => ?_⟩
  have : ‖f x‖ ≤ ‖L‖ * ‖x‖ := L.le_opNorm x
  nlinarith [norm_nonneg L]

end

section
variable {h w c cin cout : ℕ}

theorem reg_convT (stride : ℕ) (l : ConvT cin cout) : Reg (l.apply stride h w) := by
  refine (Reg.linear (conv2dTranspose stride h w l.weights) (fun x y => ?_) fun r x => ?_).add (Reg.const fun _ _ => l.biases)
  · funext y x o
    simp only [conv2dTranspose, Pi.add_apply, ← Finset.sum_add_distrib]
    refine Finset.sum_congr rfl fun i _ => Finset.sum_congr rfl fun j _ => Finset.sum_congr rfl fun c _ => Finset.sum_congr rfl fun di _ =>
      Finset.sum_congr rfl fun dj _ => ?_
    split <;> ring
  · funext y x o
    simp only [conv2dTranspose, Pi.smul_apply, smul_eq_mul, Finset.mul_sum]
    refine Finset.sum_congr rfl fun i _ => Finset.sum_congr rfl fun j _ => Finset.sum_congr rfl fun c _ => Finset.sum_congr rfl fun di _ =>
      Finset.sum_congr rfl fun dj _ => ?_
    split <;> ring

theorem reg_resize {h' w' : ℕ} (hh : h = h') (hw : w = w') : Reg (resize hh hw : Image h w c → Image h' w' c) :=
  Reg.linear _ (fun _ _ => rfl) fun _ _ => rfl

theorem reg_image : Reg (image : (Fin (h * w * c) → ℝ) → Image h w c) := Reg.linear _ (fun _ _ => rfl) fun _ _ => rfl

theorem reg_vector : Reg (vector : Image h w c → Fin (h * w * c) → ℝ) := Reg.linear _ (fun _ _ => rfl) fun _ _ => rfl

theorem reg_reluI : Reg (reluI : Image h w c → Image h w c) := by
  refine ⟨by unfold reluI; fun_prop, 1, zero_le_one, fun a => ?_⟩
  have : ‖reluI a‖ ≤ ‖a‖ := by
    refine (pi_norm_le_iff_of_nonneg (norm_nonneg _)).2 fun y => (pi_norm_le_iff_of_nonneg (norm_nonneg _)).2 fun x =>
      (pi_norm_le_iff_of_nonneg (norm_nonneg _)).2 fun o => ?_
    rw [Real.norm_eq_abs, reluI, abs_of_nonneg (le_max_right _ _)]
    have h1 : ‖a y x o‖ ≤ ‖a‖ := (norm_le_pi_norm (a y x) o).trans ((norm_le_pi_norm (a y) x).trans (norm_le_pi_norm a y))
    exact max_le ((le_abs_self _).trans h1) (norm_nonneg _)
  linarith

theorem reg_deconvBlock (l1 l2 : ConvT c c) : Reg (deconvBlock h w l1 l2) :=
  reg_reluI.comp (((reg_convT 1 l2).comp ((reg_resize _ _).comp (reg_reluI.comp ((reg_convT 1 l1).comp (reg_resize _ _))))).add Reg.id)

theorem reg_deconvBlockUp (l1 : ConvT cin cin) (l2 lr : ConvT cin cout) : Reg (deconvBlockUp h w l1 l2 lr) :=
  reg_reluI.comp (((reg_convT 2 l2).comp (reg_reluI.comp ((reg_convT 1 l1).comp (reg_resize _ _)))).add (reg_convT 2 lr))

end

section
variable {zd nf K b : ℕ}

theorem reg_blocks (g : Gen zd nf) : Reg g.blocks :=
  (reg_convT 1 g.last).comp ((reg_resize (stride_one 28).symm (stride_one 28).symm).comp ((reg_deconvBlock g.b5.1 g.b5.2).comp
    ((reg_deconvBlockUp (h := 28) (w := 28) g.b4.1 g.b4.2.1 g.b4.2.2).comp ((reg_deconvBlock (h := 14) (w := 14) g.b3.1 g.b3.2).comp
      ((reg_deconvBlockUp (h := 14) (w := 14) g.b2.1 g.b2.2.1 g.b2.2.2).comp (reg_deconvBlock (h := 7) (w := 7) g.b1.1 g.b1.2))))))

theorem reg_rowLogits (g : Gen zd nf) : Reg (rowLogits g) := by
  have e : rowLogits g = fun z => vector (g.blocks (image (relu (g.dense.apply z)))) := funext fun z => logits_eq g _ 0 0
  rw [e]
  refine reg_vector.comp ((reg_blocks g).comp (reg_image.comp (Reg.comp ⟨Vae.continuous_relu, 1, zero_le_one, fun a => ?_⟩
    ⟨Vae.continuous_dense _, Vae.dense_growth _⟩)))
  have := Vae.relu_norm a
  linarith

/-! ## The lower bound -/

theorem lik_of {xd : ℕ} (f : (Fin zd → ℝ) → Fin xd → ℝ) (hf : Reg f) (x : Fin xd → Bool) : Lik fun z => logLik (f z) x := by
  obtain ⟨hc, c, h0, hg⟩ := hf
  refine ⟨?_, ⟨0, fun z => Finset.sum_nonpos fun d _ => (Vae.bernoulli_growth _ _).2⟩, ?_⟩
  · unfold logLik Uni.Bernoulli.logProb
    refine continuous_finsetSum _ fun d _ => ?_
    have h : Continuous fun z => f z d := (continuous_apply d).comp hc
    simp only [Uni.sigmoidCrossEntropy_eq]
    unfold Uni.softplus
    have h2 : Continuous fun z => Real.log (1 + Real.exp (f z d)) :=
      (continuous_const.add h.rexp).log fun z => (add_pos one_pos (Real.exp_pos _)).ne'
    exact (h2.sub (h.mul continuous_const)).neg
  · have hl : 0 < Real.log 2 := Real.log_pos (by norm_num)
    refine ⟨xd * (c + Real.log 2), 1, by positivity, fun z => ?_⟩
    rw [pow_one]
    have h1 : |logLik (f z) x| ≤ ∑ _d : Fin xd, (c + Real.log 2) * (1 + ‖z‖) := by
      refine (Finset.abs_sum_le_sum_abs _ _).trans (Finset.sum_le_sum fun d _ => ?_)
      refine (Vae.bernoulli_growth _ _).1.trans ?_
      have : |f z d| ≤ c * (1 + ‖z‖) := (norm_le_pi_norm (f z) d).trans (hg z)
      nlinarith [norm_nonneg z]
    refine h1.trans (le_of_eq ?_)
    rw [Finset.sum_const, Finset.card_univ, Fintype.card_fin, nsmul_eq_mul]
    ring

/-- The lower bound of a batch of one image. -/
noncomputable def rowBound (g : Gen zd nf) (q : QNet zd nf) (x : Fin (28 * 28 * 1) → Bool) (e : Fin K → Fin zd → ℝ) : ℝ :=
  lowerBound (b := 1) g q (fun _ => x) fun _ => e

/-- The distribution of the latent vectors drawn for an image: normal, with the parameters that the encoder returns for it. -/
noncomputable def drawn (q : QNet zd nf) (x : Fin (28 * 28 * 1) → Bool) : Measure (Fin zd → ℝ) :=
  Measure.pi fun j => gaussianReal ((q.params (b := 1) (fun _ => x) 0).1 j) (Uni.sq (Real.exp ((q.params (b := 1) (fun _ => x) 0).2 j)))

theorem lowerBound_eq (g : Gen zd nf) (q : QNet zd nf) (x : Fin b → Fin (28 * 28 * 1) → Bool) (e : Fin b → Fin K → Fin zd → ℝ) :
    lowerBound g q x e = (∑ i, (Grad.elboObjective (fun k => .const (logPrior (encode (q.params x i).1 (q.params x i).2 [] (e i k)).1 +
      logLik (rowLogits g (encode (q.params x i).1 (q.params x i).2 [] (e i k)).1) (x i)))
      (fun k => .const (encode (q.params x i).1 (q.params x i).2 [] (e i k)).2)).val) / b := by
  have hl : ∀ k i, g.logits (q.samples x e) k i = rowLogits g (q.samples x e k i) := fun k i => (C106_rows g _ q x k i).1
  simp only [lowerBound, hl]
  rfl

theorem rowBound_eq (g : Gen zd nf) (q : QNet zd nf) (x : Fin (28 * 28 * 1) → Bool) (e : Fin K → Fin zd → ℝ) : rowBound g q x e =
    (Grad.elboObjective (fun k => .const (logPrior (encode (q.params (b := 1) (fun _ => x) 0).1 (q.params (b := 1) (fun _ => x) 0).2 [] (e k)).1 +
      logLik (rowLogits g (encode (q.params (b := 1) (fun _ => x) 0).1 (q.params (b := 1) (fun _ => x) 0).2 [] (e k)).1) x))
      (fun k => .const (encode (q.params (b := 1) (fun _ => x) 0).1 (q.params (b := 1) (fun _ => x) 0).2 [] (e k)).2)).val := by
  rw [rowBound, lowerBound_eq, Fin.sum_univ_one, Nat.cast_one, div_one]

theorem lowerBound_rows (g : Gen zd nf) (q : QNet zd nf) (x : Fin b → Fin (28 * 28 * 1) → Bool) (e : Fin b → Fin K → Fin zd → ℝ) :
    lowerBound g q x e = (∑ i, rowBound g q (x i) (e i)) / b := by
  have hq : ∀ i, q.params x i = q.params (b := 1) (fun _ => x i) 0 := fun i => (C106_rows (K := 1) g (fun _ _ _ => 0) q x 0 i).2
  simp only [lowerBound_eq, rowBound_eq, hq]

theorem rowBound_elbo (g : Gen zd nf) (q : QNet zd nf) (x : Fin (28 * 28 * 1) → Bool) (K : ℕ) :
    klDiv (drawn q x) (posterior (rowLogits g) x) ≠ ⊤ ∧
    Integrable (fun e => rowBound g q x e) (Measure.pi fun _ : Fin (K + 1) => normals (Fin zd)) ∧
    ∫ e, rowBound g q x e ∂(Measure.pi fun _ : Fin (K + 1) => normals (Fin zd)) =
      Real.log (modelProb (rowLogits g) x) - (klDiv (drawn q x) (posterior (rowLogits g) x)).toReal := by
  have := Vae.row_elbo (lik_of _ (reg_rowLogits g) x) (q.params (b := 1) (fun _ => x) 0).1 (q.params (b := 1) (fun _ => x) 0).2 [] (by simp) K
  have e : (fun z => Real.exp (logLik (rowLogits g z) x)) = lik (rowLogits g) x := funext fun _ => Vae.exp_logLik _ _
  have e2 : ((normals (Fin zd)).map fun e => (encode (q.params (b := 1) (fun _ => x) 0).1 (q.params (b := 1) (fun _ => x) 0).2 [] e).1) = drawn q x := by
    rw [drawn, ← Vae.draw_normal]
    rfl
  rw [e, e2] at this
  simp only [rowBound_eq]
  exact this

/-- **C106.** For all values of the variables of the networks and any batch, the expected lower bound is the mean over the images of the log
probability under the model minus the divergence of the distribution of the vectors drawn from the posterior; so it is a lower bound of
the mean log probability. -/
theorem C106_elbo (g : Gen zd nf) (q : QNet zd nf) (x : Fin b → Fin (28 * 28 * 1) → Bool) (K : ℕ) :
    (∀ i, klDiv (drawn q (x i)) (posterior (rowLogits g) (x i)) ≠ ⊤) ∧
    ∫ e, lowerBound g q x e ∂(Measure.pi fun _ : Fin b => Measure.pi fun _ : Fin (K + 1) => normals (Fin zd)) =
      (∑ i, (Real.log (modelProb (rowLogits g) (x i)) - (klDiv (drawn q (x i)) (posterior (rowLogits g) (x i))).toReal)) / b ∧
    ∫ e, lowerBound g q x e ∂(Measure.pi fun _ : Fin b => Measure.pi fun _ : Fin (K + 1) => normals (Fin zd)) ≤
      (∑ i, Real.log (modelProb (rowLogits g) (x i))) / b := by
  have h : ∫ e, lowerBound g q x e ∂(Measure.pi fun _ : Fin b => Measure.pi fun _ : Fin (K + 1) => normals (Fin zd)) =
      (∑ i, (Real.log (modelProb (rowLogits g) (x i)) - (klDiv (drawn q (x i)) (posterior (rowLogits g) (x i))).toReal)) / b := by
    simp only [lowerBound_rows]
    rw [integral_div, integral_finsetSum _ fun i _ =>
      integrable_comp_eval (μ := fun _ : Fin b => Measure.pi fun _ : Fin (K + 1) => normals (Fin zd)) (i := i) (rowBound_elbo g q (x i) K).2.1]
    congr 1
    refine Finset.sum_congr rfl fun i _ => ?_
    rw [← (rowBound_elbo g q (x i) K).2.2]
    exact integral_comp_eval (μ := fun _ : Fin b => Measure.pi fun _ : Fin (K + 1) => normals (Fin zd)) (i := i)
      (rowBound_elbo g q (x i) K).2.1.aestronglyMeasurable
  exact ⟨fun i => (rowBound_elbo g q (x i) K).1, h, h ▸ div_le_div_of_nonneg_right
    (Finset.sum_le_sum fun i _ => sub_le_self _ ENNReal.toReal_nonneg) (Nat.cast_nonneg _)⟩

/-! ## Training, tests and generated images -/

/-- The rows of a batch. -/
def rows {D : Type} [Inhabited D] (l : List D) : Fin b → D := fun i => l.getD i default

theorem mean_rows {D N : Type} [Inhabited D] (φ : D → N → ℝ) (l : List D) (hl : l.length = b) (z : Fin b → N) :
    (∑ i, φ (rows l i) (z i)) / (b : ℝ) = mean (List.zipWith φ l (List.ofFn z)) := by
  subst hl
  have h1 : List.zipWith φ l (List.ofFn z) = List.ofFn fun r => φ (rows l r) (z r) := by
    apply List.ext_getElem
    · simp
    · intro i h1 h2
      simp [rows]
  rw [mean, h1, List.sum_ofFn, List.length_ofFn]

theorem binarize_ae {xd : ℕ} (xInput : Fin xd → ℝ) : ∀ᵐ u ∂(uniforms (Fin xd)), binarize xInput u = Vae.binarize xInput u := by
  have h : ∀ d, ∀ᵐ u ∂(uniforms (Fin xd)), u d ≠ xInput d := fun d => by
    have h1 : ∀ᵐ v ∂((volume : Measure ℝ).restrict (Set.Ico (0 : ℝ) 1)), v ≠ xInput d :=
      ae_restrict_of_ae (by simp [ae_iff])
    have hp : IsProbabilityMeasure ((volume : Measure ℝ).restrict (Set.Ico (0 : ℝ) 1)) := ⟨by simp⟩
    exact (measurePreserving_eval (fun _ : Fin xd => (volume : Measure ℝ).restrict (Set.Ico (0 : ℝ) 1)) d).quasiMeasurePreserving.ae h1
  filter_upwards [ae_all_iff.2 h] with u hu
  funext d
  simp only [binarize, Vae.binarize, decide_eq_decide]
  exact ⟨fun hle => lt_of_le_of_ne hle (hu d), le_of_lt⟩

/-- **C106.** The pixels are made binary independently, each being one with its intensity, although `<=` is used and not `<`. -/
theorem C106_binarize {xd : ℕ} (xInput : Fin xd → ℝ) (h : ∀ d, 0 ≤ xInput d ∧ xInput d ≤ 1) (x : Fin xd → Bool) :
    (uniforms (Fin xd)).real {u | binarize xInput u = x} = imageProb xInput x := by
  rw [← Vae.C98_binarize xInput h x]
  refine measureReal_congr ?_
  filter_upwards [binarize_ae xInput] with u hu
  exact congrArg (· = x) hu

/-- **C106.** The lower bound in training: with a uniform shuffle its expected value over the shuffle, the draws that make the images binary and those of
the particles is the mean over all training images of the mean over their binary images of the log probability minus the divergence. -/
theorem C106_train {n : ℕ} (g : Gen zd nf) (q : QNet zd nf) (x : Fin n → Fin (28 * 28 * 1) → ℝ) (hx : ∀ i d, 0 ≤ x i d ∧ x i d ≤ 1)
    (π : Equiv.Perm (Fin n)) (b t K : ℕ) (hb : 0 < b) (ht : t < itersDown n b) :
    ∫ σ, ∫ z : Fin b → Vae.Noise (28 * 28 * 1) (K + 1) zd,
        lowerBound g q (fun i => binarize (rows (batch (fun i => x (π (σ i))) b t) i) (z i).1) (fun i => (z i).2) ∂(Vae.noiseLaw _ (K + 1) zd b)
        ∂(uniform n) =
      (∑ i, ∑ y, imageProb (x i) y *
        (Real.log (modelProb (rowLogits g) y) - (klDiv (drawn q y) (posterior (rowLogits g) y)).toReal)) / n := by
  have h := Vae.train_mean (rowBound (K := K + 1) g q) (fun y => (rowBound_elbo g q y K).2.1) (fun i => x (π i)) (fun i => hx (π i)) b t hb ht
  simp only [(rowBound_elbo g q _ K).2.2] at h
  rw [Equiv.sum_comp π fun i => ∑ y, imageProb (x i) y *
    (Real.log (modelProb (rowLogits g) y) - (klDiv (drawn q y) (posterior (rowLogits g) y)).toReal)] at h
  rw [← h]
  refine integral_congr_ae (Filter.Eventually.of_forall fun σ => integral_congr_ae ?_)
  have hl : (batch (fun i => x (π (σ i))) b t).length = b := (C92_cover_down _ b).2 t ht
  have hae : ∀ i : Fin b, ∀ᵐ z ∂(Vae.noiseLaw (28 * 28 * 1) (K + 1) zd b),
      binarize (rows (batch (fun i => x (π (σ i))) b t) i) (z i).1 = Vae.binarize (rows (batch (fun i => x (π (σ i))) b t) i) (z i).1 := fun i => by
    have h1 := (measurePreserving_eval (fun _ : Fin b => (uniforms (Fin (28 * 28 * 1))).prod (Measure.pi fun _ : Fin (K + 1) => normals (Fin zd)))
      i).quasiMeasurePreserving
    have h2 := (Measure.quasiMeasurePreserving_fst (μ := uniforms (Fin (28 * 28 * 1))) (ν := Measure.pi fun _ : Fin (K + 1) => normals (Fin zd)))
    exact h1.ae (h2.ae (binarize_ae _))
  filter_upwards [ae_all_iff.2 hae] with z hz
  simp only [hz, lowerBound_rows, Vae.batchMean]
  exact mean_rows (fun xInput (z : Vae.Noise (28 * 28 * 1) (K + 1) zd) => rowBound g q (Vae.binarize xInput z.1) z.2) _ hl z

/-- Hypotheses of `C106_train` that hold: two training images of half intensity in batches of one, with the identity as order. -/
example (g : Gen 40 16) (q : QNet 40 16) :
    ∫ σ, ∫ z : Fin 1 → Vae.Noise (28 * 28 * 1) (1 + 1) 40,
        lowerBound g q (fun i => binarize (rows (batch (fun i => (fun _ _ => 1 / 2 : Fin 2 → Fin (28 * 28 * 1) → ℝ) ((1 : Equiv.Perm (Fin 2)) (σ i))) 1 1) i)
          (z i).1) (fun i => (z i).2) ∂(Vae.noiseLaw _ (1 + 1) 40 1) ∂(uniform 2) =
      (∑ _i : Fin 2, ∑ y, imageProb (fun _ => 1 / 2) y *
        (Real.log (modelProb (rowLogits g) y) - (klDiv (drawn q y) (posterior (rowLogits g) y)).toReal)) / (2 : ℕ) :=
  C106_train g q (fun _ _ => 1 / 2) (fun _ _ => by norm_num) 1 1 1 1 one_pos (by simp [itersDown])

/-- **C106.** The expected value of what the tests print is the mean over the images in full batches of the log probability minus the divergence. -/
theorem C106_test {n : ℕ} (g : Gen zd nf) (q : QNet zd nf) (x : Fin n → Fin (28 * 28 * 1) → Bool) (b K : ℕ) (hb : 0 < b) :
    mean ((List.range (itersDown n b)).map fun t => ∫ z, lowerBound g q (rows (batch x b t)) z
      ∂(Measure.pi fun _ : Fin b => Measure.pi fun _ : Fin (K + 1) => normals (Fin zd))) =
      mean (((List.ofFn x).take (n - n % b)).map fun y =>
        Real.log (modelProb (rowLogits g) y) - (klDiv (drawn q y) (posterior (rowLogits g) y)).toReal) := by
  rw [← C92_mean_of_means x b hb, meanOfMeans]
  congr 1
  refine List.map_congr_left fun t ht => ?_
  have hl : (batch x b t).length = b := (C92_cover_down x b).2 t (List.mem_range.1 ht)
  simp only [lowerBound_rows, mean_rows (fun y e => rowBound g q y e) _ hl]
  rw [Vae.mean_zipWith _ (rowBound g q) _ hl fun y _ => (rowBound_elbo g q y K).2.1]
  simp only [(rowBound_elbo g q _ K).2.2]

/-- **C106.** Every generated picture has, on average, the probabilities of the pixels under the model, in their places. -/
theorem C106_generate {n : ℕ} (g : Gen zd nf) (i : Fin n) (y x : Fin 28) :
    ∫ e, g.generate e (finProdFinEquiv (0, i)) y x 0 ∂(Measure.pi fun _ : Fin n => normals (Fin zd)) =
      ∑ a, modelProb (rowLogits g) a * (if a (finProdFinEquiv (finProdFinEquiv (y, x), 0)) then 1 else 0) := by
  have hint : ∀ a, Integrable (lik (rowLogits g) a) (normals (Fin zd)) := fun a => by
    obtain ⟨_, r, _, _, hM, _⟩ := Vae.latent (lik_of _ (reg_rowLogits g) a) 0 0 [] (by simp)
    have := hM.p_int
    have e : (fun z => Real.exp (logLik (rowLogits g z) a)) = lik (rowLogits g) a := funext fun _ => Vae.exp_logLik _ _
    rwa [e] at this
  set d : Fin (28 * 28 * 1) := finProdFinEquiv (finProdFinEquiv (y, x), 0)
  have e1 : ∀ e : Fin n → Fin zd → ℝ, g.generate e (finProdFinEquiv (0, i)) y x 0 = logistic (rowLogits g (e i) d) := fun e => by
    rw [Gen.generate, toImages_row, (C106_rows g _ ⟨⟨0, 0⟩, (⟨0, 0⟩, ⟨0, 0⟩), (⟨0, 0⟩, ⟨0, 0⟩, ⟨0, 0⟩), (⟨0, 0⟩, ⟨0, 0⟩), (⟨0, 0⟩, ⟨0, 0⟩, ⟨0, 0⟩),
      (⟨0, 0⟩, ⟨0, 0⟩), ⟨0, 0⟩, ⟨0, 0⟩, ⟨0, 0⟩⟩ (fun _ _ => true) 0 i).1, Vae.logistic_eq]
    simp [Uni.Normal.sample, rowLogits, d]
  simp only [e1]
  have hm : Measurable fun z => logistic (rowLogits g z d) := by
    have h1 : Continuous fun z => rowLogits g z d := (continuous_apply d).comp (reg_rowLogits g).1
    unfold logistic
    fun_prop
  rw [integral_comp_eval (μ := fun _ : Fin n => normals (Fin zd)) (i := i) (f := fun z => logistic (rowLogits g z d)) hm.aestronglyMeasurable]
  unfold modelProb
  have e2 : ∀ a : Fin (28 * 28 * 1) → Bool, (∫ z, lik (rowLogits g) a z ∂(normals (Fin zd))) * (if a d then (1 : ℝ) else 0) =
      ∫ z, lik (rowLogits g) a z * (if a d then 1 else 0) ∂(normals (Fin zd)) := fun a => (integral_mul_const _ _).symm
  simp only [e2]
  rw [← integral_finsetSum _ fun a _ => (hint a).mul_const _]
  refine integral_congr_ae (Filter.Eventually.of_forall fun z => ?_)
  exact (Vae.imageProb_marginal (fun d => logistic (rowLogits g z d)) d).symm

end

end ZhuSuan.ConvVae
