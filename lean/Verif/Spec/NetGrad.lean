import Mathlib.Analysis.Calculus.Deriv.Basic
import Mathlib.MeasureTheory.Integral.Bochner.Basic
import Verif.Model.Dual
import Verif.Spec.NetIw

/-!
# Two nets whose densities depend on a parameter
-/

set_option autoImplicit false

namespace ZhuSuan.VObj
open ZhuSuan.BN ZhuSuan.Grad
open scoped ENNReal
open MeasureTheory

/-- What a TensorFlow graph holds for the quantity `f` of the parameter, at `θ`: its value and its derivative. -/
def Tracks (f : ℝ → ℝ) (θ : ℝ) (d : Dual) : Prop := d.val = f θ ∧ HasDerivAt f d.der θ

section
variable {V W E : Type}

/-- The graph holds the log joint `l` and the variational log probabilities of the objective `v`, with their
gradients at the parameter `θ`: `logJoint`, and `lps` in the same order.  The samples are `sample t e` when the
parameter is `t` and the random draws are `e`: a sample that carries no gradient does not depend on `t`. -/
structure Holds (l : ℝ → W → EReal) (v : ℝ → VObj V (W → EReal)) (θ : ℝ) (sample : ℝ → E → W)
    (logJoint : E → Dual) (lps : List (Name × (E → Dual))) : Prop where
  joint : ∀ e, Tracks (fun t => (l t (sample t e)).toReal) θ (logJoint e)
  len : ∀ t, (v t).vLogProbs.length = lps.length
  prob : ∀ (i : ℕ) (e : E), Tracks
    (fun t => (((v t).vLogProbs.map Prod.snd).getD i (fun _ => 0) (sample t e)).toReal) θ
    ((lps.map Prod.snd).getD i (fun _ => Dual.const 0) e)

end

variable {X : Type} [MeasurableSpace X]

/-- A variational program and a model program whose densities depend on a parameter.  The variational nodes keep
their names, and the densities are positive and finite. -/
structure Family (μ : Name → Measure X) (Q P : ℝ → List (Decl X)) (obs : Dict Name X)
    (dr : ℕ → (ℕ → X) → X) : Prop where
  fits : ∀ t, Fits μ (Q t) (P t) obs dr
  names : ∀ t s, (Q t).map Decl.name = (Q s).map Decl.name
  posQ : ∀ t w, jointDens (Q t) w ≠ 0 ∧ jointDens (Q t) w ≠ ⊤
  posP : ∀ t w, jointDens (P t) (modelVals (consts obs) (Q t) (P t) dr w) ≠ 0 ∧
    jointDens (P t) (modelVals (consts obs) (Q t) (P t) dr w) ≠ ⊤

/-- The user's training graph: two programs with a parameter, the objective built from them by the code for each
value of the parameter, at least one latent variable, and the tensors of the objective with their gradients at
`θ`. -/
structure Training {E : Type} (μ : Name → Measure X) (Q P : ℝ → List (Decl X)) (obs : Dict Name X)
    (dr : ℕ → (ℕ → X) → X) (l : ℝ → (ℕ → X) → EReal) (v : ℝ → VObj X ((ℕ → X) → EReal)) (θ : ℝ)
    (sample : ℝ → E → ℕ → X) (logJoint : E → Dual) (lps : List (Name × (E → Dual))) : Prop where
  family : Family μ Q P obs dr
  ran : ∀ t, ∃ mq m q', (m = none ∨ m = some .unset) ∧ Ran (Q t) (P t) mq m (consts obs) dr (v t) q' (l t)
  latent : Q θ ≠ []
  holds : Holds l v θ sample logJoint lps

/-- The reference measure of the variational samples. -/
noncomputable def latentBase (μ : Name → Measure X) (Q : List (Decl X)) (w0 : ℕ → X) : Measure (ℕ → X) :=
  (Measure.pi (fun i : Finset.range Q.length => baseOf μ Q i)).map
    (Function.updateFinset w0 (Finset.range Q.length))

/-- The log density of the variational samples. -/
noncomputable def logQ (Q : List (Decl X)) (w : ℕ → X) : ℝ := Real.log (jointDens Q w).toReal

/-- The log density of the model at the samples and the observations. -/
noncomputable def logP (Q P : List (Decl X)) (obs : Dict Name X) (dr : ℕ → (ℕ → X) → X) (w : ℕ → X) : ℝ :=
  Real.log (jointDens P (modelVals (consts obs) Q P dr w)).toReal

/-- The posterior of the latent variables given the observations, on the places of the variational samples. -/
noncomputable def netPosterior (μ : Name → Measure X) (Q P : List (Decl X)) (obs : Dict Name X)
    (dr : ℕ → (ℕ → X) → X) (w0 : ℕ → X) (x0 : X) : Measure (ℕ → X) :=
  (latentBase μ Q w0).withDensity
    (fun w => jointDens P (modelVals (consts obs) Q P dr w) / evidence μ P obs x0)

/-- The inclusive Kullback-Leibler divergence from the posterior of the model to the variational program `Q'`:
the posterior expectation of the log posterior density minus the log density of `Q'`. -/
noncomputable def netKL (μ : Name → Measure X) (Q P Q' : List (Decl X)) (obs : Dict Name X)
    (dr : ℕ → (ℕ → X) → X) (w0 : ℕ → X) (x0 : X) : ℝ :=
  ∫ w, (Real.log (jointDens P (modelVals (consts obs) Q P dr w) / evidence μ P obs x0).toReal - logQ Q' w)
    ∂(netPosterior μ Q P obs dr w0 x0)

end ZhuSuan.VObj
