import Mathlib.Probability.Distributions.Gaussian.Real
import Verif.Spec.GaussVec

/-!
# Specification: regression with a Gaussian process

Nothing here mentions the script.
-/

set_option autoImplicit false

open MeasureTheory ProbabilityTheory

namespace ZhuSuan.Svgp

variable {κ ι : Type} [Fintype κ] [Fintype ι]

/-- The squared exponential kernel with variance one, `ell c` being the squared length scale of input `c`. -/
noncomputable def kernel (ell : κ → ℝ) (a b : κ → ℝ) : ℝ := Real.exp (-(1 / 2) * ∑ c, (a c - b c) ^ 2 / ell c)

/-- The covariance matrix of the values of the process at given points. -/
noncomputable def gram (ell : κ → ℝ) (p : ι → κ → ℝ) : Matrix ι ι ℝ := Matrix.of fun i j => kernel ell (p i) (p j)

/-- The law of the values of the process at given points. -/
def IsGP (ell : κ → ℝ) (p : ι → κ → ℝ) (prior : Measure (ι → ℝ)) : Prop := Sgmcmc.Normal prior (fun f => f) 0 (gram ell p)

/-- The textbook density of a normal vector. -/
noncomputable def normalPdf [DecidableEq ι] (m : ι → ℝ) (S : Matrix ι ι ℝ) (x : ι → ℝ) : ℝ :=
  (√((2 * Real.pi) ^ Fintype.card ι * S.det))⁻¹ * Real.exp (-(dotProduct (x - m) (S⁻¹.mulVec (x - m))) / 2)

/-- The likelihood of `y`: independent normal noise of standard deviation `s` is added to the values of the process at the second group
of points. -/
noncomputable def likelihood {ζ : Type} (s : NNReal) (y : ι → ℝ) (f : ζ ⊕ ι → ℝ) : ℝ :=
  ∏ i, gaussianPDFReal (f (.inr i)) (s ^ 2) (y i)

/-- The variational distribution of the values at both groups of points: normal with mean `m` and covariance `S` at the first group, and
elsewhere as the prior given these values.  (Its density with respect to the prior depends on the values at the first group alone.) -/
noncomputable def variational {ζ : Type} [Fintype ζ] [DecidableEq ζ] (ell : κ → ℝ) (z : ζ → κ → ℝ) (prior : Measure (ζ ⊕ ι → ℝ))
    (m : ζ → ℝ) (S : Matrix ζ ζ ℝ) : Measure (ζ ⊕ ι → ℝ) :=
  prior.withDensity fun f =>
    ENNReal.ofReal (normalPdf m S (fun i => f (.inl i)) / normalPdf 0 (gram ell z) fun i => f (.inl i))

/-- A lower triangular matrix with positive diagonal, from arbitrary numbers. -/
noncomputable def tril {m : ℕ} (raw : Fin m → Fin m → ℝ) : Matrix (Fin m) (Fin m) ℝ :=
  Matrix.of fun i j => if j < i then raw i j else if j = i then Real.log (1 + Real.exp (raw i i)) else 0

/-- The noise of the samples: all the numbers are independent and standard normal. -/
noncomputable def noise (K m l : ℕ) : Measure (Fin K → (Fin m → ℝ) × (Fin l → ℝ)) :=
  Measure.pi fun _ => (Measure.pi fun _ => gaussianReal 0 1).prod (Measure.pi fun _ => gaussianReal 0 1)

end ZhuSuan.Svgp
