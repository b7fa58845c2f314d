import Verif.Spec.Vae

/-!
# Specification: layers of binary units
-/

set_option autoImplicit false

namespace ZhuSuan.Sbn

open ZhuSuan.Vae

section
variable {h xd : ℕ}

/-- The states of three hidden layers, the first being next to the image. -/
abbrev Latent (h : ℕ) : Type := (Fin h → Bool) × (Fin h → Bool) × (Fin h → Bool)

/-- The probability of the states of the layers and of an image: the units of the third layer are fair coins, and `f2`, `f1`, `fx` give the log
odds of the units of a layer from the layer above. -/
noncomputable def jointProb (f2 f1 : (Fin h → Bool) → Fin h → ℝ) (fx : (Fin h → Bool) → Fin xd → ℝ) (z : Latent h) (x : Fin xd → Bool) : ℝ :=
  (1 / 2) ^ h * imageProb (fun j => logistic (f2 z.2.2 j)) z.2.1 * imageProb (fun j => logistic (f1 z.2.1 j)) z.1 *
    imageProb (fun d => logistic (fx z.1 d)) x

/-- The probability of an image. -/
noncomputable def marginal (f2 f1 : (Fin h → Bool) → Fin h → ℝ) (fx : (Fin h → Bool) → Fin xd → ℝ) (x : Fin xd → Bool) : ℝ :=
  ∑ z, jointProb f2 f1 fx z x

/-- Bayes' rule: the probability of the states given the image. -/
noncomputable def posteriorProb (f2 f1 : (Fin h → Bool) → Fin h → ℝ) (fx : (Fin h → Bool) → Fin xd → ℝ) (x : Fin xd → Bool) (z : Latent h) : ℝ :=
  jointProb f2 f1 fx z x / marginal f2 f1 fx x

/-- The probability of the states when they are drawn upwards: `c1`, `c2`, `c3` give the log odds from the layer below. -/
noncomputable def upProb (c1 : Fin h → ℝ) (c2 c3 : (Fin h → Bool) → Fin h → ℝ) (z : Latent h) : ℝ :=
  imageProb (fun j => logistic (c1 j)) z.1 * imageProb (fun j => logistic (c2 z.1 j)) z.2.1 * imageProb (fun j => logistic (c3 z.2.1 j)) z.2.2

/-- The Kullback–Leibler divergence of probabilities on a finite set. -/
noncomputable def klFinite {Z : Type} [Fintype Z] (p q : Z → ℝ) : ℝ := ∑ z, p z * Real.log (p z / q z)

end

end ZhuSuan.Sbn
