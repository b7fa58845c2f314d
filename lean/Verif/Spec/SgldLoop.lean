import Verif.Spec.SgmcmcWeak

/-!
# Conditions under which SGLD reaches the posterior
-/

set_option autoImplicit false

open MeasureTheory ProbabilityTheory

namespace ZhuSuan.SgWeak

variable {V : Type} {I : V → Type} [Fintype V] [∀ v, Fintype (I v)]

/-- The inner product of two values of the latent variables. -/
def dot (x y : (v : V) → I v → ℝ) : ℝ := ∑ v, ∑ i, x v i * y v i

/-- The square of the Euclidean length. -/
def nsq (x : (v : V) → I v → ℝ) : ℝ := ∑ v, ∑ i, x v i ^ 2

/-- A strongly concave log density whose gradient is Lipschitz. -/
structure StrongConcave (l : ((v : V) → I v → ℝ) → ℝ) (m L : ℝ) : Prop where
  smooth : ContDiff ℝ 1 l
  pos : 0 < m
  lip : ∀ x y, nsq (pd l x - pd l y) ≤ L ^ 2 * nsq (x - y)
  concave : ∀ x y, dot (pd l x - pd l y) (x - y) ≤ -m * nsq (x - y)

/-- Gradient estimates of the `T` iterations of an epoch, from one draw `ω` for the whole epoch: every estimate is unbiased, has a
finite second moment and is Lipschitz in the latent variables. -/
structure Estimates {Ω : Type} [MeasurableSpace Ω] (P : Measure Ω)
    (G : ℕ → Ω → ((v : V) → I v → ℝ) → (v : V) → I v → ℝ) (T : ℕ) (l : ((v : V) → I v → ℝ) → ℝ) (L : ℝ) : Prop where
  meas : ∀ t < T, Measurable fun a : Ω × ((v : V) → I v → ℝ) => G t a.1 a.2
  unbiased : ∀ t < T, Unbiased P (G t) l
  sq : ∀ t < T, Integrable (fun ω => nsq (G t ω 0)) P
  lip : ∀ t < T, ∀ ω x y, nsq (G t ω x - G t ω y) ≤ L ^ 2 * nsq (x - y)

/-- The distributions are within `√δ` of each other in the Wasserstein distance of order two: values with these distributions can
be drawn together so that their mean squared distance is at most `δ`. -/
def Near (μ ν : Measure ((v : V) → I v → ℝ)) (δ : ℝ) : Prop :=
  ∃ W : Measure (((v : V) → I v → ℝ) × ((v : V) → I v → ℝ)), W.map Prod.fst = μ ∧ W.map Prod.snd = ν ∧
    Integrable (fun a => nsq (a.1 - a.2)) W ∧ ∫ a, nsq (a.1 - a.2) ∂W ≤ δ

/-- A function that grows at most like a square and whose slope grows at most linearly, like the values, squares and products of
the latent variables. -/
def Quadratic (f : ((v : V) → I v → ℝ) → ℝ) : Prop :=
  ∃ C : ℝ, ∀ x y, |f x - f y| ≤ C * (1 + ‖x‖ + ‖y‖) * ‖x - y‖

end ZhuSuan.SgWeak
