import Mathlib.Data.Fintype.Perm
import Mathlib.Probability.Distributions.Uniform

/-!
# A uniformly distributed permutation
-/

set_option autoImplicit false

open MeasureTheory

namespace ZhuSuan.Minibatch

instance permSpace (n : ℕ) : MeasurableSpace (Equiv.Perm (Fin n)) := ⊤

/-- `np.random.permutation(n)`: all permutations have the same probability. -/
noncomputable def uniform (n : ℕ) : Measure (Equiv.Perm (Fin n)) := (PMF.uniformOfFintype (Equiv.Perm (Fin n))).toMeasure

end ZhuSuan.Minibatch
