import Mathlib.MeasureTheory.Constructions.Pi
import Mathlib.Analysis.SpecialFunctions.Exp

/-! The categorical law, independently of the model. -/

set_option autoImplicit false

namespace ZhuSuan.Num
open MeasureTheory

/-- The probability of category `k`: `exp (logits k)` over the sum of all. -/
noncomputable def softmax {n : ℕ} (logits : Fin (n + 1) → ℝ) (k : Fin (n + 1)) : ℝ :=
  Real.exp (logits k) / ∑ j, Real.exp (logits j)

/-- The law of one draw of `tf.random.categorical(logits, ·)`. -/
noncomputable def categoricalLaw {n : ℕ} (logits : Fin (n + 1) → ℝ) : Measure (Fin (n + 1)) :=
  ∑ k, ENNReal.ofReal (softmax logits k) • Measure.dirac k

end ZhuSuan.Num
