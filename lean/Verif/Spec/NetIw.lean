import Verif.Spec.EndToEnd

/-!
# When a variational program and a model program make a sound objective
-/

set_option autoImplicit false

namespace ZhuSuan.VObj
open ZhuSuan.BN
open scoped ENNReal
open MeasureTheory

variable {X : Type} [MeasurableSpace X]

/-- `Q` is a variational program for the model `P` with the values `obs` observed: both are well formed, `Q`
has one node for each latent variable of `P`, and the densities are measurable, those of `Q` integrating to
one.  (`dr` are the draws of the model net, which are not used when everything is covered.) -/
structure Fits (μ : Name → Measure X) (Q P : List (Decl X)) (obs : Dict Name X)
    (dr : ℕ → (ℕ → X) → X) : Prop where
  wfQ : WellFormed Q
  wfP : WellFormed P
  wfObs : obs.WF
  covers : Covers Q P obs
  draws : ∀ i, Measurable (dr i)
  measQ : ∀ d ∈ Q, Measurable (fun p : (ℕ → X) × X => d.dens (d.parents.map p.1) p.2)
  measP : ∀ d ∈ P, Measurable (fun p : (ℕ → X) × X => d.dens (d.parents.map p.1) p.2)
  norm : ∀ d ∈ Q, ∀ v : ℕ → X, ∫⁻ x, d.dens (d.parents.map v) x ∂(μ d.name) = 1

/-- The distribution of `K` independent sets of variational samples. -/
noncomputable def manySamples (μ : Name → Measure X) (Q : List (Decl X)) (w0 : ℕ → X) (K : ℕ) :
    Measure (Fin K → ℕ → X) :=
  Measure.pi (fun _ => latentLaw μ Q w0)

/-- Every latent value that the model can produce with the observations can be sampled. -/
def Supports (Q P : List (Decl X)) (obs : Dict Name X) (dr : ℕ → (ℕ → X) → X) : Prop :=
  ∀ w, jointDens Q w = 0 → jointDens P (modelVals (consts obs) Q P dr w) = 0

end ZhuSuan.VObj
