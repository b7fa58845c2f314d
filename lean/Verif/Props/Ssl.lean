import Verif.Model.Ssl
import Verif.Props.Discrete2
import Verif.Props.Vae
import Verif.Spec.Ssl

/-!
# The semi-supervised variational autoencoder (C99)
-/

set_option autoImplicit false

open MeasureTheory ProbabilityTheory InformationTheory

namespace ZhuSuan.Ssl

open Vae Num

section
variable {zd C h1 h2 k1 k2 c1 c2 xd K n m b : ℕ}

/-! ## The networks for a fixed class are those of the variational autoencoder -/

/-- The generator for the class `y`. -/
noncomputable def Gen.at (g : Gen zd C h1 h2 xd) (y : Fin C) : Vae.Gen zd h1 h2 xd :=
  ⟨⟨g.lz.kernel, fun j => g.lz.bias j + g.ly.apply (oneHot y) j⟩, g.l2, g.l3⟩

theorem Gen.at_logits (g : Gen zd C h1 h2 xd) (y : Fin C) : (g.at y).logits = fun z => g.logits z y := by
  funext z
  unfold Vae.Gen.logits Gen.logits
  have : (g.at y).l1.apply z = fun j => g.lz.apply z j + g.ly.apply (oneHot y) j := by
    funext j
    unfold Dense.apply Gen.at
    simp only [Dense.apply]
    ring
  rw [this]
  rfl

/-- The encoder for the class `y`. -/
noncomputable def Qz.at (q : Qz xd C k1 k2 zd) (y : Fin C) : QNet xd k1 k2 zd :=
  ⟨⟨fun i j => q.l1.kernel (Fin.castAdd C i) j, fun j => (∑ c, (oneHot y c : ℝ) * q.l1.kernel (Fin.natAdd xd c) j) + q.l1.bias j⟩,
    q.l2, q.lMean, q.lLogstd, []⟩

theorem Qz.at_hidden (q : Qz xd C k1 k2 zd) (x : Fin xd → Bool) (y : Fin C) : (q.at y).hidden x = q.hidden x y := by
  unfold QNet.hidden Qz.hidden
  have : (q.at y).l1.apply (pixels x) = q.l1.apply (Fin.append (pixels x) (oneHot y)) := by
    funext j
    unfold Dense.apply
    rw [Fin.sum_univ_add]
    simp only [Fin.append_left, Fin.append_right, Qz.at]
    ring
  rw [this]
  rfl

theorem Qz.at_mean (q : Qz xd C k1 k2 zd) (x : Fin xd → Bool) (y : Fin C) : (q.at y).mean x = q.mean x y := by
  unfold QNet.mean Qz.mean
  rw [q.at_hidden]; rfl

theorem Qz.at_logstd (q : Qz xd C k1 k2 zd) (x : Fin xd → Bool) (y : Fin C) : (q.at y).logstd x = q.logstd x y := by
  unfold QNet.logstd Qz.logstd
  rw [q.at_hidden]; rfl

theorem Qz.at_ok (q : Qz xd C k1 k2 zd) (y : Fin C) : (q.at y).Ok := by
  intro ps hps
  simp [Qz.at] at hps

theorem logPriorY_eq (y : Fin (C + 1)) : logPriorY y = -Real.log ((C + 1 : ℕ) : ℝ) := by
  have h := (C21_mass (fun _ : Fin (C + 1) => (0 : ℝ)) y).1
  rw [logPriorY, C21_onehot]
  have h2 : Num.softmax (fun _ : Fin (C + 1) => (0 : ℝ)) y = ((C + 1 : ℕ) : ℝ)⁻¹ := by
    simp [Num.softmax]
  rw [h2] at h
  rw [← Real.log_inv, ← h, Real.log_exp]

theorem rowLb_eq (g : Gen zd (C + 1) h1 h2 xd) (q : Qz xd (C + 1) k1 k2 zd) (x : Fin xd → Bool) (y : Fin (C + 1))
    (e : Fin (K + 1) → Fin zd → ℝ) : rowLb g q x y e = rowElbo (g.at y) (q.at y) x e - Real.log ((C + 1 : ℕ) : ℝ) := by
  have h1 : rowLb g q x y e = (∑ k, (logPrior (encode (q.mean x y) (q.logstd x y) [] (e k)).1 + logPriorY y +
      logLik (g.logits (encode (q.mean x y) (q.logstd x y) [] (e k)).1 y) x - (encode (q.mean x y) (q.logstd x y) [] (e k)).2)) / (K + 1 : ℕ) := by
    rw [rowLb, Grad.elboObjective_val]
    rfl
  have h2 : rowElbo (g.at y) (q.at y) x e = (∑ k, (logPrior (encode (q.mean x y) (q.logstd x y) [] (e k)).1 +
      logLik (g.logits (encode (q.mean x y) (q.logstd x y) [] (e k)).1 y) x - (encode (q.mean x y) (q.logstd x y) [] (e k)).2)) / (K + 1 : ℕ) := by
    rw [rowElbo, Grad.elboObjective_val]
    unfold QNet.particle Vae.Gen.logJoint
    rw [q.at_mean, q.at_logstd, g.at_logits]
    rfl
  rw [h1, h2, logPriorY_eq]
  have hK : ((K + 1 : ℕ) : ℝ) ≠ 0 := by positivity
  rw [eq_sub_iff_add_eq, div_add' _ _ _ hK]
  congr 1
  rw [show Real.log ((C + 1 : ℕ) : ℝ) * ((K + 1 : ℕ) : ℝ) = ∑ _k : Fin (K + 1), Real.log ((C + 1 : ℕ) : ℝ) by
    rw [Finset.sum_const, Finset.card_univ, Fintype.card_fin, nsmul_eq_mul, mul_comm], ← Finset.sum_add_distrib]
  refine Finset.sum_congr rfl fun k _ => ?_
  ring

/-! ## Labeled images -/

/-- The distribution of the latent vectors that the code draws for the image `x` and the class `y`. -/
noncomputable def drawn (q : Qz xd C k1 k2 zd) (x : Fin xd → Bool) (y : Fin C) : Measure (Fin zd → ℝ) :=
  Measure.pi fun j => gaussianReal (q.mean x y j) (Uni.sq (Real.exp (q.logstd x y j)))

/-- The divergence of the latent vectors drawn for an image and a class from their posterior. -/
noncomputable def latentKl (g : Gen zd C h1 h2 xd) (q : Qz xd C k1 k2 zd) (x : Fin xd → Bool) (y : Fin C) : ℝ :=
  (klDiv (drawn q x y) (posterior (fun z => g.logits z y) x)).toReal

theorem latentKl_nonneg (g : Gen zd C h1 h2 xd) (q : Qz xd C k1 k2 zd) (x : Fin xd → Bool) (y : Fin C) : 0 ≤ latentKl g q x y :=
  ENNReal.toReal_nonneg

theorem classProb_pos (g : Gen zd (C + 1) h1 h2 xd) (x : Fin xd → Bool) (y : Fin (C + 1)) : 0 < classProb g.logits x y := by
  have h := (C98_model (g.at y)).1 x
  rw [g.at_logits] at h
  exact div_pos h (by positivity)

/-- **C99.** The model is a distribution of images and classes, and the classes are equally likely. -/
theorem C99_model (g : Gen zd (C + 1) h1 h2 xd) :
    (∀ x y, 0 < classProb g.logits x y) ∧ (∀ y, ∑ x, classProb g.logits x y = 1 / (C + 1 : ℕ)) ∧ ∑ x, marginalProb g.logits x = 1 := by
  have h : ∀ y, ∑ x, classProb g.logits x y = 1 / (C + 1 : ℕ) := fun y => by
    have h := (C98_model (g.at y)).2
    rw [g.at_logits] at h
    unfold classProb
    rw [← Finset.sum_div, h]
  refine ⟨classProb_pos g, h, ?_⟩
  unfold marginalProb
  rw [Finset.sum_comm, Finset.sum_congr rfl fun y _ => h y, Finset.sum_const, Finset.card_univ, Fintype.card_fin, nsmul_eq_mul,
    mul_one_div_cancel (by positivity)]

theorem rowLb_int (g : Gen zd (C + 1) h1 h2 xd) (q : Qz xd (C + 1) k1 k2 zd) (x : Fin xd → Bool) (y : Fin (C + 1)) (K : ℕ) :
    Integrable (fun e => rowLb g q x y e) (Measure.pi fun _ : Fin (K + 1) => normals (Fin zd)) := by
  have e : (fun e => rowLb g q x y e) = fun e : Fin (K + 1) → Fin zd → ℝ => rowElbo (g.at y) (q.at y) x e - Real.log ((C + 1 : ℕ) : ℝ) :=
    funext fun e => rowLb_eq g q x y e
  rw [e]
  exact (rowElbo_int (g.at y) (q.at y) (q.at_ok y) x K).sub (integrable_const _)

/-- **C99.** The expected lower bound of an image with its label is the log probability of both under the model, minus the divergence of the
distribution of the drawn vectors from the posterior. -/
theorem C99_labeled (g : Gen zd (C + 1) h1 h2 xd) (q : Qz xd (C + 1) k1 k2 zd) (x : Fin xd → Bool) (y : Fin (C + 1)) (K : ℕ) :
    klDiv (drawn q x y) (posterior (fun z => g.logits z y) x) ≠ ⊤ ∧
    ∫ e, rowLb g q x y e ∂(Measure.pi fun _ : Fin (K + 1) => normals (Fin zd)) =
      Real.log (classProb g.logits x y) - (klDiv (drawn q x y) (posterior (fun z => g.logits z y) x)).toReal := by
  have hd : Vae.drawn (q.at y) x = drawn q x y := by
    rw [C98_drawn (q.at y) rfl, q.at_mean, q.at_logstd]; rfl
  obtain ⟨a, b⟩ := C98_elbo (g.at y) (q.at y) (q.at_ok y) x K
  rw [hd, g.at_logits] at a b
  refine ⟨a, ?_⟩
  simp only [rowLb_eq]
  rw [integral_sub (rowElbo_int (g.at y) (q.at y) (q.at_ok y) x K) (integrable_const _), b, integral_const]
  have hp := (C98_model (g.at y)).1 x
  rw [g.at_logits] at hp
  rw [classProb, Real.log_div hp.ne' (by positivity)]
  simp
  ring

/-! ## Unlabeled images -/

theorem softmax_props (l : Fin (C + 1) → ℝ) : (∀ c, 0 < softmax l c) ∧ ∑ c, softmax l c = 1 :=
  ⟨fun c => softmax_pos l c, softmax_sum l⟩

/-- **C99.** The class probabilities of the classifier that the unlabeled bound uses are positive, sum to one, and differ from the softmax by at
most the number of classes times `1e-8`. -/
theorem C99_classes (l : Fin (C + 1) → ℝ) :
    (∀ c, 0 < qyU l c) ∧ ∑ c, qyU l c = 1 ∧ ∀ c, |qyU l c - Real.exp (l c) / ∑ j, Real.exp (l j)| ≤ (C + 1 : ℕ) * 1e-8 := by
  obtain ⟨hp, hs⟩ := softmax_props l
  have hS : ∑ j, (softmax l j + 1e-8) = 1 + (C + 1 : ℕ) * 1e-8 := by
    rw [Finset.sum_add_distrib, hs, Finset.sum_const, Finset.card_univ, Fintype.card_fin, nsmul_eq_mul]
  have hpos : (0 : ℝ) < 1 + (C + 1 : ℕ) * 1e-8 := by positivity
  refine ⟨fun c => ?_, ?_, fun c => ?_⟩
  · rw [qyU, hS]
    have := hp c
    positivity
  · unfold qyU
    rw [← Finset.sum_div, div_self]
    rw [hS]; exact hpos.ne'
  · rw [qyU, hS]
    change |_ - softmax l c| ≤ _
    have h1 : softmax l c ≤ 1 := by
      rw [← hs]
      exact Finset.single_le_sum (fun j _ => (hp j).le) (Finset.mem_univ c)
    have h0 := hp c
    have e : (softmax l c + 1e-8) / (1 + (C + 1 : ℕ) * 1e-8) - softmax l c =
        (1e-8 - softmax l c * ((C + 1 : ℕ) * 1e-8)) / (1 + (C + 1 : ℕ) * 1e-8) := by
      field_simp
      ring
    have hc : (1 : ℝ) ≤ ((C + 1 : ℕ) : ℝ) := by exact_mod_cast Nat.succ_le_succ (Nat.zero_le C)
    rw [e, abs_div, abs_of_pos hpos, div_le_iff₀ hpos]
    have h2 : |1e-8 - softmax l c * (((C + 1 : ℕ) : ℝ) * 1e-8)| ≤ ((C + 1 : ℕ) : ℝ) * 1e-8 := by
      rw [abs_le]
      constructor <;> nlinarith
    refine h2.trans (le_mul_of_one_le_right (by positivity) (by linarith [show (0 : ℝ) ≤ (C + 1 : ℕ) * 1e-8 by positivity]))

theorem rows {D : Type} (x : Fin n → D) (F : D → Fin (C + 1) → Fin (n * (C + 1)) → ℝ) (i : Fin n) (c : Fin (C + 1)) :
    reshapeRow (fun r => F (xU x r) (yU r) r) i c = F (x i) c ⟨i * (C + 1) + c, row_lt i c⟩ := by
  unfold reshapeRow xU yU
  have h1 : (⟨(i : ℕ) * (C + 1) + c, row_lt i c⟩ : Fin (n * (C + 1))).divNat = i := by
    ext
    simp [Fin.divNat, Nat.mul_comm i.val, Nat.mul_add_div, Nat.div_eq_of_lt c.isLt]
  have h2 : (⟨(i : ℕ) * (C + 1) + c, row_lt i c⟩ : Fin (n * (C + 1))).modNat = c := by
    ext
    simp [Fin.modNat, Nat.mul_comm i.val, Nat.mod_eq_of_lt c.isLt]
  simp only [h1, h2]

/-- **C99.** The rows are laid out and put together correctly: entry `i, c` of the reshaped bounds belongs to image `i` and class `c`. -/
theorem C99_rows {D : Type} (x : Fin n → D) (F : D → Fin (C + 1) → ℝ) (i : Fin n) (c : Fin (C + 1)) :
    reshapeRow (fun r => F (xU x r) (yU r)) i c = F (x i) c := rows x (fun d c _ => F d c) i c

theorem classKl_nonneg {q p : Fin C → ℝ} (hq : ∀ c, 0 < q c) (hp : ∀ c, 0 < p c) (h1 : ∑ c, q c = 1) (h2 : ∑ c, p c = 1) :
    0 ≤ classKl q p := by
  have : ∀ c, q c - p c ≤ q c * Real.log (q c / p c) := fun c => by
    have h := Real.log_le_sub_one_of_pos (div_pos (hp c) (hq c))
    rw [show q c / p c = (p c / q c)⁻¹ by rw [inv_div], Real.log_inv]
    have h3 : q c * (p c / q c) = p c := by field_simp [(hq c).ne']
    nlinarith [hq c]
  have h := Finset.sum_le_sum fun c (_ : c ∈ Finset.univ) => this c
  rw [Finset.sum_sub_distrib, h1, h2, sub_self] at h
  exact h

theorem marginalProb_pos (g : Gen zd (C + 1) h1 h2 xd) (x : Fin xd → Bool) : 0 < marginalProb g.logits x :=
  Finset.sum_pos (fun y _ => classProb_pos g x y) ⟨0, Finset.mem_univ 0⟩

theorem classPosterior_props (g : Gen zd (C + 1) h1 h2 xd) (x : Fin xd → Bool) :
    (∀ y, 0 < classPosterior g.logits x y) ∧ ∑ y, classPosterior g.logits x y = 1 := by
  refine ⟨fun y => div_pos (classProb_pos g x y) (marginalProb_pos g x), ?_⟩
  unfold classPosterior
  rw [← Finset.sum_div]
  exact div_self (marginalProb_pos g x).ne'

/-- What the bound of an unlabeled image is in expectation, `q` being the class probabilities. -/
theorem row_unlabeled (g : Gen zd (C + 1) h1 h2 xd) (x : Fin xd → Bool) (q : Fin (C + 1) → ℝ) (hq : ∀ c, 0 < q c) (h1 : ∑ c, q c = 1)
    (kl : Fin (C + 1) → ℝ) :
    ∑ c, q c * ((Real.log (classProb g.logits x c) - kl c) - Real.log (q c)) =
      Real.log (marginalProb g.logits x) - (classKl q (classPosterior g.logits x) + ∑ c, q c * kl c) := by
  have h : ∀ c, q c * ((Real.log (classProb g.logits x c) - kl c) - Real.log (q c)) =
      q c * Real.log (marginalProb g.logits x) - (q c * Real.log (q c / classPosterior g.logits x c) + q c * kl c) := fun c => by
    have hc := classProb_pos g x c
    have hm := marginalProb_pos g x
    rw [classPosterior, Real.log_div (hq c).ne' (div_pos hc hm).ne', Real.log_div hc.ne' hm.ne']
    ring
  rw [Finset.sum_congr rfl fun c _ => h c, Finset.sum_sub_distrib, ← Finset.sum_mul, h1, one_mul, Finset.sum_add_distrib]
  rfl

/-- The gap of the bound of an unlabeled image: the divergence of the classifier from the class posterior, and the mean divergence of the drawn
vectors from their posterior.  (The divergence of the joint distribution of class and vector.) -/
noncomputable def gap (g : Gen zd (C + 1) h1 h2 xd) (q : Qz xd (C + 1) k1 k2 zd) (p : Fin (C + 1) → ℝ) (x : Fin xd → Bool) : ℝ :=
  classKl p (classPosterior g.logits x) + ∑ c, p c * latentKl g q x c

theorem gap_nonneg (g : Gen zd (C + 1) h1 h2 xd) (q : Qz xd (C + 1) k1 k2 zd) (l : Fin (C + 1) → ℝ) (x : Fin xd → Bool) :
    0 ≤ gap g q (qyU l) x := by
  obtain ⟨h1, h2, _⟩ := C99_classes l
  obtain ⟨h3, h4⟩ := classPosterior_props g x
  exact add_nonneg (classKl_nonneg h1 h3 h2 h4) (Finset.sum_nonneg fun c _ => mul_nonneg (h1 c).le (latentKl_nonneg g q x c))

/-- The standard normal draws of the particles of `r` rows. -/
noncomputable def particles (r K zd : ℕ) : Measure (Fin r → Fin K → Fin zd → ℝ) := Measure.pi fun _ => Measure.pi fun _ => normals (Fin zd)

instance (r K zd : ℕ) : IsProbabilityMeasure (particles r K zd) := by unfold particles; infer_instance

theorem unlabeled_given (g : Gen zd (C + 1) h1 h2 xd) (q : Qz xd (C + 1) k1 k2 zd) (qy : Qy xd c1 c2 (C + 1)) (xPh : Fin n → Fin xd → ℝ)
    (x : Fin n → Fin xd → Bool) (K : ℕ) :
    Integrable (fun e => unlabeledValue g q qy xPh x e) (particles (n * (C + 1)) (K + 1) zd) ∧
    ∫ e, unlabeledValue g q qy xPh x e ∂(particles (n * (C + 1)) (K + 1) zd) =
      (∑ i, (Real.log (marginalProb g.logits (x i)) - gap g q (qyU (qy.logits (xPh i))) (x i))) / n := by
  have e : ∀ e : Fin (n * (C + 1)) → Fin (K + 1) → Fin zd → ℝ, unlabeledValue g q qy xPh x e =
      (∑ i, ∑ c, qyU (qy.logits (xPh i)) c * (rowLb g q (x i) c (e ⟨i * (C + 1) + c, row_lt i c⟩) - Real.log (qyU (qy.logits (xPh i)) c))) / n := by
    intro e
    unfold unlabeledValue
    simp only [rows x fun d c r => rowLb g q d c (e r)]
  have hi : ∀ (i : Fin n) (c : Fin (C + 1)), Integrable (fun e : Fin (n * (C + 1)) → Fin (K + 1) → Fin zd → ℝ =>
      rowLb g q (x i) c (e ⟨i * (C + 1) + c, row_lt i c⟩)) (particles (n * (C + 1)) (K + 1) zd) := fun i c =>
    integrable_comp_eval (μ := fun _ : Fin (n * (C + 1)) => Measure.pi fun _ : Fin (K + 1) => normals (Fin zd))
      (i := ⟨i * (C + 1) + c, row_lt i c⟩) (rowLb_int g q (x i) c K)
  have hv : ∀ (i : Fin n) (c : Fin (C + 1)), ∫ e : Fin (n * (C + 1)) → Fin (K + 1) → Fin zd → ℝ,
      rowLb g q (x i) c (e ⟨i * (C + 1) + c, row_lt i c⟩) ∂(particles (n * (C + 1)) (K + 1) zd) =
      Real.log (classProb g.logits (x i) c) - latentKl g q (x i) c := fun i c => by
    exact (integral_comp_eval (μ := fun _ : Fin (n * (C + 1)) => Measure.pi fun _ : Fin (K + 1) => normals (Fin zd))
      (i := ⟨i * (C + 1) + c, row_lt i c⟩) (rowLb_int g q (x i) c K).aestronglyMeasurable).trans (C99_labeled g q (x i) c K).2
  have hj : ∀ (i : Fin n) (c : Fin (C + 1)), Integrable (fun e : Fin (n * (C + 1)) → Fin (K + 1) → Fin zd → ℝ =>
      qyU (qy.logits (xPh i)) c * (rowLb g q (x i) c (e ⟨i * (C + 1) + c, row_lt i c⟩) - Real.log (qyU (qy.logits (xPh i)) c)))
      (particles (n * (C + 1)) (K + 1) zd) := fun i c => ((hi i c).sub (integrable_const _)).const_mul _
  simp only [e]
  refine ⟨(integrable_finsetSum _ fun i _ => integrable_finsetSum _ fun c _ => hj i c).div_const _, ?_⟩
  rw [integral_div, integral_finsetSum _ fun i _ => integrable_finsetSum _ fun c _ => hj i c]
  congr 1
  refine Finset.sum_congr rfl fun i _ => ?_
  obtain ⟨h1, h2, _⟩ := C99_classes (qy.logits (xPh i))
  rw [integral_finsetSum _ fun c _ => hj i c, gap, ← row_unlabeled g (x i) _ h1 h2]
  refine Finset.sum_congr rfl fun c _ => ?_
  rw [integral_const_mul, integral_sub (hi i c) (integrable_const _), hv]
  simp

/-- **C99.** If the model is built for as many rows as are observed, the expected unlabeled bound of a batch, over the draws that make the
images binary and those of the particles, is the mean over its images of the log probability of the image under the model, with the class and
the latent vector summed out, minus the divergences of the classifier and of the drawn vectors from the posteriors. -/
theorem C99_unlabeled_value (g : Gen zd (C + 1) h1 h2 xd) (q : Qz xd (C + 1) k1 k2 zd) (qy : Qy xd c1 c2 (C + 1)) (xPh : Fin n → Fin xd → ℝ)
    (hx : ∀ i d, 0 ≤ xPh i d ∧ xPh i d ≤ 1) (K : ℕ) :
    ∫ u : Fin n → Fin xd → ℝ, ∫ e, unlabeledValue g q qy xPh (fun i => binarize (xPh i) (u i)) e ∂(particles (n * (C + 1)) (K + 1) zd)
      ∂(Measure.pi fun _ => uniforms (Fin xd)) =
      (∑ i, ∑ x, imageProb (xPh i) x * (Real.log (marginalProb g.logits x) - gap g q (qyU (qy.logits (xPh i))) x)) / n := by
  simp only [(unlabeled_given g q qy xPh _ K).2]
  have hi : ∀ i : Fin n, Integrable (fun u : Fin xd → ℝ => Real.log (marginalProb g.logits (binarize (xPh i) u)) -
      gap g q (qyU (qy.logits (xPh i))) (binarize (xPh i) u)) (uniforms (Fin xd)) := fun i => by
    have hf := measurable_of_finite fun x : Fin xd → Bool => Real.log (marginalProb g.logits x) - gap g q (qyU (qy.logits (xPh i))) x
    have hm := hf.comp (measurable_binarize (xPh i))
    obtain ⟨B, hB⟩ := (Set.finite_range fun x : Fin xd → Bool =>
      ‖Real.log (marginalProb g.logits x) - gap g q (qyU (qy.logits (xPh i))) x‖).bddAbove
    exact Integrable.of_bound hm.aestronglyMeasurable B (Filter.Eventually.of_forall fun u => hB ⟨binarize (xPh i) u, rfl⟩)
  rw [integral_div, integral_finsetSum _ fun i _ => integrable_comp_eval (μ := fun _ : Fin n => uniforms (Fin xd)) (i := i) (hi i)]
  congr 1
  refine Finset.sum_congr rfl fun i _ => ?_
  refine (integral_comp_eval (μ := fun _ : Fin n => uniforms (Fin xd)) (i := i) (hi i).aestronglyMeasurable).trans ?_
  exact integral_binarize (xPh i) (hx i) fun x => Real.log (marginalProb g.logits x) - gap g q (qyU (qy.logits (xPh i))) x

/-- **C99.** The claim for the code: with a batch of one image, the shapes fit, and the expected bound is as above, so at most the mean log
probability of the binary images.  With more than one image in a batch (`C99_shape_error`) there is no bound. -/
theorem C99_unlabeled_partial (g : Gen zd (C + 1) h1 h2 xd) (q : Qz xd (C + 1) k1 k2 zd) (qy : Qy xd c1 c2 (C + 1)) (xPh : Fin 1 → Fin xd → ℝ)
    (hx : ∀ i d, 0 ≤ xPh i d ∧ xPh i d ≤ 1) (K : ℕ) :
    ∃ bound : (Fin 1 → Fin xd → ℝ) → (Fin (1 * (C + 1)) → Fin (K + 1) → Fin zd → ℝ) → ℝ,
      (∀ u e, unlabeledBound g q qy xPh (fun i => binarize (xPh i) (u i)) e = some (bound u e)) ∧
      ∫ u, ∫ e, bound u e ∂(particles (1 * (C + 1)) (K + 1) zd) ∂(Measure.pi fun _ => uniforms (Fin xd)) =
        ∑ x, imageProb (xPh 0) x * (Real.log (marginalProb g.logits x) - gap g q (qyU (qy.logits (xPh 0))) x) ∧
      ∫ u, ∫ e, bound u e ∂(particles (1 * (C + 1)) (K + 1) zd) ∂(Measure.pi fun _ => uniforms (Fin xd)) ≤
        ∑ x, imageProb (xPh 0) x * Real.log (marginalProb g.logits x) := by
  have h := C99_unlabeled_value g q qy xPh hx K
  rw [Finset.univ_unique, Finset.sum_singleton, Nat.cast_one, div_one] at h
  refine ⟨fun u e => unlabeledValue g q qy xPh (fun i => binarize (xPh i) (u i)) e, fun u e => ?_, h, h.trans_le ?_⟩
  · unfold unlabeledBound
    have b1 : Shape.bcast [1, zd] [K + 1, 1 * (C + 1), zd] = some [K + 1, 1 * (C + 1), zd] := by
      simp [Shape.bcast, Shape.zipLongest, Shape.zipRest, Shape.dim]
    have b2 : Shape.bcast [1, C + 1] [1 * (C + 1), C + 1] = some [1 * (C + 1), C + 1] := by
      simp [Shape.bcast, Shape.zipLongest, Shape.zipRest, Shape.dim]
    rw [b1, b2]
    rfl
  · exact Finset.sum_le_sum fun x _ => mul_le_mul_of_nonneg_left (sub_le_self _ (gap_nonneg g q _ x)) (imageProb_nonneg (hx _) x)

/-- **C99.** The part that fails: with at least two images and two classes the log probabilities of the unlabeled rows cannot be computed, as
the parameters of the model have one row for each image and the values one for each image and class ("TODO: n not match" in the code). -/
theorem C99_shape_error (g : Gen zd (C + 1) h1 h2 xd) (q : Qz xd (C + 1) k1 k2 zd) (qy : Qy xd c1 c2 (C + 1)) (xPh : Fin n → Fin xd → ℝ)
    (x : Fin n → Fin xd → Bool) (e : Fin (n * (C + 1)) → Fin K → Fin zd → ℝ) (hn : 2 ≤ n) (hC : 1 ≤ C) :
    unlabeledBound g q qy xPh x e = none := by
  have h1 : n * (C + 1) ≠ n := by nlinarith
  have h2 : n * (C + 1) ≠ 1 := by nlinarith
  have h3 : Shape.dim n (n * (C + 1)) = none := by
    unfold Shape.dim
    rw [if_neg (by omega), if_neg h2, if_neg (Ne.symm h1)]
  have hb : Shape.bcast [n, zd] [K, n * (C + 1), zd] = none := by
    cases h : Shape.dim zd zd <;> simp [Shape.bcast, Shape.zipLongest, Shape.zipRest, h3, h]
  unfold unlabeledBound
  rw [hb]
  rfl

/-! ## The objective -/

/-- `np.random.randint(0, m, size=b)`. -/
noncomputable def randint (b m : ℕ) [NeZero m] : Measure (Fin b → Fin m) := Measure.pi fun _ => (PMF.uniformOfFintype (Fin m)).toMeasure

instance (b m : ℕ) [NeZero m] : IsProbabilityMeasure (randint b m) := by unfold randint; infer_instance

theorem randint_mean {b m : ℕ} [NeZero m] (hb : 0 < b) (φ : Fin m → ℝ) :
    ∫ idx, (∑ j, φ (idx j)) / b ∂(randint b m) = (∑ i, φ i) / m := by
  have hi : ∀ j : Fin b, Integrable (fun idx : Fin b → Fin m => φ (idx j)) (randint b m) := fun j => .of_finite
  rw [integral_div, integral_finsetSum _ fun j _ => hi j]
  have h : ∀ j : Fin b, ∫ idx : Fin b → Fin m, φ (idx j) ∂(randint b m) = (∑ i, φ i) / m := fun j => by
    refine (integral_comp_eval (μ := fun _ : Fin b => (PMF.uniformOfFintype (Fin m)).toMeasure) (i := j)
      (measurable_of_finite φ).aestronglyMeasurable).trans ?_
    rw [PMF.integral_eq_sum]
    simp only [PMF.uniformOfFintype_apply, Fintype.card_fin, ENNReal.toReal_inv, ENNReal.toReal_natCast, smul_eq_mul]
    rw [← Finset.mul_sum, div_eq_inv_mul]
  rw [Finset.sum_congr rfl fun j _ => h j, Finset.sum_const, Finset.card_univ, Fintype.card_fin, nsmul_eq_mul,
    mul_div_cancel_left₀ _ (by positivity)]

theorem labeled_rows {b m : ℕ} (φ : (Fin xd → Bool) → Fin (C + 1) → (Fin (K + 1) → Fin zd → ℝ) → ℝ)
    (hφ : ∀ x y, Integrable (φ x y) (Measure.pi fun _ : Fin (K + 1) => normals (Fin zd)))
    (x : Fin m → Fin xd → ℝ) (hx : ∀ i d, 0 ≤ x i d ∧ x i d ≤ 1) (y : Fin m → Fin (C + 1)) (idx : Fin b → Fin m) :
    Integrable (fun z : Fin b → Noise xd (K + 1) zd => (∑ j, φ (binarize (pick x idx j) (z j).1) (pick y idx j) (z j).2) / b) (noiseLaw xd (K + 1) zd b) ∧
    ∫ z, (∑ j, φ (binarize (pick x idx j) (z j).1) (pick y idx j) (z j).2) / b ∂(noiseLaw xd (K + 1) zd b) =
      (∑ j, ∑ v, imageProb (x (idx j)) v * ∫ e, φ v (y (idx j)) e ∂(Measure.pi fun _ : Fin (K + 1) => normals (Fin zd))) / b := by
  have h0 : ∀ j : Fin b, Integrable (fun z : Noise xd (K + 1) zd => φ (binarize (x (idx j)) z.1) (y (idx j)) z.2)
      ((uniforms (Fin xd)).prod (Measure.pi fun _ : Fin (K + 1) => normals (Fin zd))) := fun j =>
    integrable_binarized _ (fun v e => φ v (y (idx j)) e) (fun v => hφ v _) (x (idx j))
  have hi : ∀ j : Fin b, Integrable (fun z : Fin b → Noise xd (K + 1) zd => φ (binarize (pick x idx j) (z j).1) (pick y idx j) (z j).2)
      (noiseLaw xd (K + 1) zd b) := fun j =>
    integrable_comp_eval (μ := fun _ : Fin b => (uniforms (Fin xd)).prod (Measure.pi fun _ : Fin (K + 1) => normals (Fin zd))) (i := j) (h0 j)
  refine ⟨(integrable_finsetSum _ fun j _ => hi j).div_const _, ?_⟩
  rw [integral_div, integral_finsetSum _ fun j _ => hi j]
  congr 1
  refine Finset.sum_congr rfl fun j _ => ?_
  refine (integral_comp_eval (μ := fun _ : Fin b => (uniforms (Fin xd)).prod (Measure.pi fun _ : Fin (K + 1) => normals (Fin zd))) (i := j)
    (h0 j).aestronglyMeasurable).trans ?_
  rw [integral_prod _ (h0 j), integral_binarize _ (hx (idx j)) fun v => ∫ e, φ v (y (idx j)) e ∂(Measure.pi fun _ : Fin (K + 1) => normals (Fin zd))]

/-- **C99.** The objective of the optimizer.  With random labeled images, and the shapes of the unlabeled rows right (`unlabeled` is the unlabeled
bound, whose draws `w` are independent of the others), the expected cost is minus half the sum of: the mean over all labeled images of the log
probability of image and label minus the divergence; the expected unlabeled bound; and `beta` times the mean over all labeled images of the log
probability that the classifier gives to the label. -/
theorem C99_cost {W : Type} [MeasurableSpace W] (Q : Measure W) [IsProbabilityMeasure Q] {unlabeled : W → ℝ} (hU : Integrable unlabeled Q)
    (g : Gen zd (C + 1) h1 h2 xd) (q : Qz xd (C + 1) k1 k2 zd) (qy : Qy xd c1 c2 (C + 1)) [NeZero m] (hb : 0 < b)
    (x : Fin m → Fin xd → ℝ) (hx : ∀ i d, 0 ≤ x i d ∧ x i d ≤ 1) (y : Fin m → Fin (C + 1)) (beta : ℝ) (K : ℕ) :
    ∫ idx, ∫ z, ∫ w, cost
        (labeledBound g q (fun j => binarize (pick x idx j) (z j).1) (pick y idx) fun j => (z j).2)
        (unlabeled w)
        (classifierCost qy beta (fun j => binarize (pick x idx j) (z j).1) (pick y idx)) ∂Q ∂(noiseLaw xd (K + 1) zd b) ∂(randint b m) =
      -((∑ i, ∑ v, imageProb (x i) v * (Real.log (classProb g.logits v (y i)) -
            (klDiv (drawn q v (y i)) (posterior (fun z => g.logits z (y i)) v)).toReal)) / m +
        ∫ w, unlabeled w ∂Q +
        beta * ((∑ i, ∑ v, imageProb (x i) v * Real.log (Num.softmax (qy.logits (pixels v)) (y i))) / m)) / 2 := by
  set φ : (Fin xd → Bool) → Fin (C + 1) → (Fin (K + 1) → Fin zd → ℝ) → ℝ := fun v c e =>
    rowLb g q v c e + beta * onehotLogProb (qy.logits (pixels v)) (oneHot c) with hφ
  have hφi : ∀ v c, Integrable (φ v c) (Measure.pi fun _ : Fin (K + 1) => normals (Fin zd)) := fun v c =>
    (rowLb_int g q v c K).add (integrable_const _)
  have hφv : ∀ v c, ∫ e, φ v c e ∂(Measure.pi fun _ : Fin (K + 1) => normals (Fin zd)) =
      (Real.log (classProb g.logits v c) - (klDiv (drawn q v c) (posterior (fun z => g.logits z c) v)).toReal) +
        beta * Real.log (Num.softmax (qy.logits (pixels v)) c) := fun v c => by
    rw [hφ]
    simp only []
    rw [integral_add (rowLb_int g q v c K) (integrable_const _), (C99_labeled g q v c K).2, integral_const, C21_onehot,
      ← (C21_mass (qy.logits (pixels v)) c).1, Real.log_exp]
    simp
  have e1 : ∀ (idx : Fin b → Fin m) (z : Fin b → Noise xd (K + 1) zd), ∫ w, cost
        (labeledBound g q (fun j => binarize (pick x idx j) (z j).1) (pick y idx) fun j => (z j).2)
        (unlabeled w)
        (classifierCost qy beta (fun j => binarize (pick x idx j) (z j).1) (pick y idx)) ∂Q =
      -((∑ j, φ (binarize (pick x idx j) (z j).1) (pick y idx j) (z j).2) / b + ∫ w, unlabeled w ∂Q) / 2 := fun idx z => by
    have e2 : ∀ w, cost (labeledBound g q (fun j => binarize (pick x idx j) (z j).1) (pick y idx) fun j => (z j).2) (unlabeled w)
        (classifierCost qy beta (fun j => binarize (pick x idx j) (z j).1) (pick y idx)) =
        (-((∑ j, φ (binarize (pick x idx j) (z j).1) (pick y idx j) (z j).2) / b) - unlabeled w) / 2 := fun w => by
      rw [cost, labeledBound, classifierCost, hφ]
      simp only []
      rw [Finset.sum_add_distrib, ← Finset.mul_sum]
      ring
    simp only [e2]
    rw [integral_div, integral_sub (integrable_const _) hU, integral_const]
    simp
    ring
  simp only [e1]
  have e3 : ∀ idx : Fin b → Fin m, ∫ z, -((∑ j, φ (binarize (pick x idx j) (z j).1) (pick y idx j) (z j).2) / b + ∫ w, unlabeled w ∂Q) / 2
      ∂(noiseLaw xd (K + 1) zd b) = -((∑ j, (∑ v, imageProb (x (idx j)) v * ∫ e, φ v (y (idx j)) e
        ∂(Measure.pi fun _ : Fin (K + 1) => normals (Fin zd)))) / b + ∫ w, unlabeled w ∂Q) / 2 := fun idx => by
    have hp : IsProbabilityMeasure (noiseLaw xd (K + 1) zd b) := by unfold noiseLaw; infer_instance
    obtain ⟨i1, i2⟩ := labeled_rows φ hφi x hx y idx
    rw [integral_div, integral_neg, integral_add i1 (integrable_const _), i2, integral_const]
    simp
  simp only [e3]
  rw [integral_div, integral_neg, integral_add .of_finite (integrable_const _),
    randint_mean hb fun i => ∑ v, imageProb (x i) v * ∫ e, φ v (y i) e ∂(Measure.pi fun _ : Fin (K + 1) => normals (Fin zd)), integral_const]
  simp only [hφv, mul_add, Finset.sum_add_distrib, probReal_univ, one_smul]
  rw [show ∑ i, ∑ v, imageProb (x i) v * (beta * Real.log (Num.softmax (qy.logits (pixels v)) (y i))) =
    beta * ∑ i, ∑ v, imageProb (x i) v * Real.log (Num.softmax (qy.logits (pixels v)) (y i)) by
      rw [Finset.mul_sum]
      refine Finset.sum_congr rfl fun i _ => ?_
      rw [Finset.mul_sum]
      exact Finset.sum_congr rfl fun v _ => by ring]
  ring

/-- Three classes, two pixels and one latent variable: the unlabeled part is the bound of a batch of one image. -/
example (g : Gen 1 3 4 4 2) (q : Qz 2 3 4 4 1) (qy : Qy 2 4 4 3) (x : Fin 5 → Fin 2 → ℝ) (hx : ∀ i d, 0 ≤ x i d ∧ x i d ≤ 1) (y : Fin 5 → Fin 3)
    (xu : Fin 1 → Fin 2 → ℝ) (v : Fin 1 → Fin 2 → Bool) :=
  C99_cost (particles (1 * 3) 10 1) (unlabeled_given g q qy xu v 9).1 g q qy one_pos x hx y 1200 9

end

end ZhuSuan.Ssl
