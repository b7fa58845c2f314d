import Mathlib.MeasureTheory.Measure.Lebesgue.Basic
import Mathlib.MeasureTheory.Measure.WithDensity
import Verif.Spec.Program

/-!
# The posterior of a model-building function
-/

set_option autoImplicit false

namespace ZhuSuan.BN
open scoped ENNReal
open MeasureTheory

variable {X : Type}

/-- The value of statement `i`'s node: what is observed for its name, else the value of the latent variable of
that name, else `x0 i`. -/
def placed (observed latent : Dict Name X) (x0 : ℕ → X) (prog : List (Decl X)) (i : ℕ) : X :=
  match prog[i]? with
  | none => x0 i
  | some d =>
    match observed.get? d.name with
    | some v => v
    | none =>
      match latent.get? d.name with
      | some v => v
      | none => x0 i

variable {k : ℕ} {κ : Fin k → Type}

/-- The latent variables with the values made of the numbers `q`. -/
def latentDict (names : Fin k → Name) (mk : (i : Fin k) → (κ i → ℝ) → X) (q : (Σ i, κ i) → ℝ) : Dict Name X :=
  List.ofFn fun i => (names i, mk i fun j => q ⟨i, j⟩)

/-- The joint density of the model with the observed nodes at their observed values, as a function of the
numbers in the latent variables: the posterior density up to the evidence. -/
noncomputable def posteriorDens (prog : List (Decl X)) (names : Fin k → Name)
    (mk : (i : Fin k) → (κ i → ℝ) → X) (observed : Dict Name X) (x0 : ℕ → X) (q : (Σ i, κ i) → ℝ) : ℝ≥0∞ :=
  jointDens prog (placed observed (latentDict names mk q) x0 prog)

/-- Every node of the model is observed or a latent variable. -/
def Complete {V : Type} (prog : List (Decl X)) (names : Fin k → Name) (observed : Dict Name V) : Prop :=
  ∀ d ∈ prog, (observed.get? d.name).isSome ∨ ∃ i, names i = d.name

/-- The observed values of one chain. -/
def atChain {C : Type} (observed : Dict Name (C → X)) (c : C) : Dict Name X :=
  observed.map fun e => (e.1, e.2 c)

variable [∀ i, Fintype (κ i)]

/-- The posterior distribution: the density divided by the evidence. -/
noncomputable def posterior (prog : List (Decl X)) (names : Fin k → Name)
    (mk : (i : Fin k) → (κ i → ℝ) → X) (observed : Dict Name X) (x0 : ℕ → X) : Measure ((Σ i, κ i) → ℝ) :=
  (∫⁻ q, posteriorDens prog names mk observed x0 q)⁻¹ •
    volume.withDensity (posteriorDens prog names mk observed x0)

end ZhuSuan.BN
