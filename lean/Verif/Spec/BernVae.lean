import Verif.Spec.Sbn

/-!
# Specification: a batch of images with binary latent variables
-/

set_option autoImplicit false

namespace ZhuSuan.BernVae

open ZhuSuan.Vae

section
variable {R : Type} [Fintype R] {zd xd : ℕ}

/-- The probability of the states of all rows and of their images: the states are fair coins, and `logits` gives the log odds of the pixels of
each row, which may depend on the states of all rows. -/
noncomputable def jointProb (logits : (R → Fin zd → Bool) → R → Fin xd → ℝ) (x : R → Fin xd → Bool) (z : R → Fin zd → Bool) : ℝ :=
  ∏ r, (1 / 2) ^ zd * imageProb (fun d => logistic (logits z r d)) (x r)

/-- The probability of the images of all rows. -/
noncomputable def marginal [DecidableEq R] (logits : (R → Fin zd → Bool) → R → Fin xd → ℝ) (x : R → Fin xd → Bool) : ℝ := ∑ z, jointProb logits x z

/-- Bayes' rule: the probability of the states of all rows given the images. -/
noncomputable def posteriorProb [DecidableEq R] (logits : (R → Fin zd → Bool) → R → Fin xd → ℝ) (x : R → Fin xd → Bool) (z : R → Fin zd → Bool) : ℝ :=
  jointProb logits x z / marginal logits x

/-- The probability of the states of all rows when they are drawn independently with the given log odds. -/
noncomputable def drawProb (odds : R → Fin zd → ℝ) (z : R → Fin zd → Bool) : ℝ := ∏ r, imageProb (fun j => logistic (odds r j)) (z r)

end

section
variable {zd xd : ℕ}

/-- The probability of one image when its states are fair coins and `odds` gives the log odds of its pixels from its own states. -/
noncomputable def rowProb (odds : (Fin zd → Bool) → Fin xd → ℝ) (y : Fin xd → Bool) : ℝ :=
  ∑ z, (1 / 2) ^ zd * imageProb (fun d => logistic (odds z d)) y

/-- Bayes' rule for one image. -/
noncomputable def rowPosterior (odds : (Fin zd → Bool) → Fin xd → ℝ) (y : Fin xd → Bool) (z : Fin zd → Bool) : ℝ :=
  (1 / 2) ^ zd * imageProb (fun d => logistic (odds z d)) y / rowProb odds y

end

end ZhuSuan.BernVae
