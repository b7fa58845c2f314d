import Mathlib.Probability.Distributions.Gaussian.Real
import Mathlib.MeasureTheory.Constructions.Pi

/-!
# The logistic-normal topic model

Independent of the code.  There are `K + 1` topics and `V + 1` words.  The proportions of the topics in a document are a normal
vector mapped to the simplex.  Every word of a document is drawn independently: first a topic from these proportions, then a word
from that topic.
-/

set_option autoImplicit false

open MeasureTheory ProbabilityTheory
open scoped ENNReal NNReal

namespace ZhuSuan.Lntm

variable {K V : ℕ}

/-- The map to the simplex: positive numbers in proportion to `exp (z k)`, with sum one. -/
noncomputable def simplex {n : ℕ} (z : Fin (n + 1) → ℝ) (k : Fin (n + 1)) : ℝ := Real.exp (z k) / ∑ j, Real.exp (z j)

/-- The probability of word `w` in a document with vector `eta`: topic `k` is chosen with probability `simplex eta k`, and then
the word with probability `simplex (beta k) w`. -/
noncomputable def wordProb (beta : Fin (K + 1) → Fin (V + 1) → ℝ) (eta : Fin (K + 1) → ℝ) (w : Fin (V + 1)) : ℝ :=
  ∑ k, simplex eta k * simplex (beta k) w

/-- The probability of the words of a document. -/
noncomputable def docProb (beta : Fin (K + 1) → Fin (V + 1) → ℝ) (doc : List (Fin (V + 1))) (eta : Fin (K + 1) → ℝ) : ℝ :=
  (doc.map (wordProb beta eta)).prod

/-- The variance of a normal distribution with the given standard deviation. -/
def var (s : ℝ) : ℝ≥0 := ⟨s ^ 2, sq_nonneg s⟩

/-- The vector of a document: independent normal entries with the given means and standard deviations. -/
noncomputable def prior (mean sd : Fin (K + 1) → ℝ) : Measure (Fin (K + 1) → ℝ) :=
  Measure.pi fun k => gaussianReal (mean k) (var (sd k))

/-- The probability of the words of a document when its vector is not known. -/
noncomputable def evidence (mean sd : Fin (K + 1) → ℝ) (beta : Fin (K + 1) → Fin (V + 1) → ℝ) (doc : List (Fin (V + 1))) : ℝ :=
  ∫ eta, docProb beta doc eta ∂(prior mean sd)

/-- Bayes' rule: the distribution of the vector of a document given its words. -/
noncomputable def posterior (mean sd : Fin (K + 1) → ℝ) (beta : Fin (K + 1) → Fin (V + 1) → ℝ) (doc : List (Fin (V + 1))) :
    Measure (Fin (K + 1) → ℝ) :=
  (prior mean sd).withDensity fun eta => ENNReal.ofReal (docProb beta doc eta / evidence mean sd beta doc)

/-- The row of a document in the matrix of counts. -/
def counts (doc : List (Fin (V + 1))) (w : Fin (V + 1)) : ℝ := doc.count w

/-- The logarithm of the density of a normal distribution. -/
noncomputable def logNormal (mean sd y : ℝ) : ℝ := Real.log (gaussianPDFReal mean (var sd) y)

/-- The logarithm of the density of the vector and the words of a document. -/
noncomputable def logComplete (mean sd : Fin (K + 1) → ℝ) (beta : Fin (K + 1) → Fin (V + 1) → ℝ) (doc : List (Fin (V + 1)))
    (eta : Fin (K + 1) → ℝ) : ℝ :=
  ∑ k, logNormal (mean k) (sd k) (eta k) + Real.log (docProb beta doc eta)

/-- The logarithm of the prior density of `beta`: independent normal entries with mean zero. -/
noncomputable def logPrior (delta : ℝ) (beta : Fin (K + 1) → Fin (V + 1) → ℝ) : ℝ := ∑ k, ∑ v, logNormal 0 delta (beta k v)

end ZhuSuan.Lntm
