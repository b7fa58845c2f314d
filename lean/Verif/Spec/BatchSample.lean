import Mathlib.MeasureTheory.Constructions.Pi
import Mathlib.Probability.Distributions.Gaussian.Real
import Mathlib.Probability.Distributions.Gamma
import Mathlib.Probability.Distributions.Poisson.Basic
import Verif.Model.BatchSample
import Verif.Spec.Univariate

/-! # What a sample of a batch should be: independent entries, each with the law of its parameters -/

set_option autoImplicit false

open MeasureTheory ProbabilityTheory Set
open scoped ENNReal

namespace ZhuSuan.Uni

open Shape

/-- The indices of a tensor of shape `s`. -/
abbrev Idx (s : List ℕ) := {i : List ℕ // i ∈ allIndices s}

instance (s : List ℕ) : Fintype (Idx s) :=
  Fintype.subtype (allIndices s).toFinset (fun i => by simp)

/-- The tensor with the given entries. -/
noncomputable def tensorOf (s : List ℕ) (x : Idx s → ℝ) : Tensor ℝ :=
  ⟨s, fun i => if h : i ∈ allIndices s then x ⟨i, h⟩ else 0⟩

namespace BDist

/-- The batch shape is the broadcast of the shapes of the parameters. -/
def HasBatch (d : BDist) (s : List ℕ) : Prop := d.toU.HasBatch s

/-- The two parameters that belong to an entry of the batch (or of `[n] + batch`), by broadcasting. -/
noncomputable def par (d : BDist) (idx : List ℕ) : ℝ × ℝ :=
  (d.sparams.1.val (projIdx d.sparams.1.shape idx), d.sparams.2.val (projIdx d.sparams.2.shape idx))

/-- Well-formed parameters of one distribution. -/
def ValidAt : BDist → ℝ × ℝ → Prop
  | normal .., p => 0 < p.2
  | bernoulli .., _ => True
  | uniform .., p => p.1 < p.2
  | gamma .., p | beta .., p | inverseGamma .., p => 0 < p.1 ∧ 0 < p.2
  | poisson .., p => 0 < p.1
  | laplace .., p => 0 < p.2
  | binConcrete .., p => 0 < p.1

/-- All parameters of the batch are well-formed. -/
def Valid (d : BDist) (s : List ℕ) : Prop := ∀ idx, InBounds idx s → d.ValidAt (d.par idx)

/-- The law of the first source at an entry with parameters `p`: the documented laws of `tf.random_normal`,
`tf.random_uniform`, `tf.random_gamma` with rate one and `tf.random_poisson`. -/
noncomputable def sourceU : BDist → ℝ × ℝ → Measure ℝ
  | normal .., _ => gaussianReal 0 1
  | bernoulli .., _ | uniform .., _ => volume.restrict (Ico (0 : ℝ) 1)
  | gamma .., p | beta .., p | inverseGamma .., p => gammaMeasure p.1 1
  | poisson .., p => (poissonMeasure p.1.toNNReal).map (fun k : ℕ => (k : ℝ))
  | laplace .., _ => (volume.restrict (Ioo (-1 : ℝ) 1)).withDensity (fun _ => ENNReal.ofReal (1 / 2))
  | binConcrete .., _ => volume.restrict (Ioo (0 : ℝ) 1)

/-- The law of the second source (used by Beta only). -/
noncomputable def sourceW : BDist → ℝ × ℝ → Measure ℝ
  | beta .., p => gammaMeasure p.2 1
  | _, _ => Measure.dirac 0

/-- The sources of a sample of shape `s`: independent, entry by entry. -/
noncomputable def noise (d : BDist) (s : List ℕ) : Measure (Idx s → ℝ × ℝ) :=
  Measure.pi fun i => (d.sourceU (d.par i)).prod (d.sourceW (d.par i))

/-- The measure with respect to which `prob` is a density: Lebesgue measure on the support, or the counting
measure of the values. -/
noncomputable def base : BDist → Measure ℝ
  | normal .. | uniform .. | laplace .. => volume
  | gamma .. | inverseGamma .. => volume.restrict (Ioi (0 : ℝ))
  | beta .. | binConcrete .. => volume.restrict (Ioo (0 : ℝ) 1)
  | bernoulli .. => Measure.dirac 0 + Measure.dirac 1
  | poisson .. => Measure.count.map (fun k : ℕ => (k : ℝ))

/-- `sample(n)` as a function of the sources: the entries of the returned tensor (0 if there were none). -/
noncomputable def drawn (d : BDist) (n : ℕ) (s : List ℕ) (w : Idx (n :: s) → ℝ × ℝ) : Idx (n :: s) → ℝ :=
  match d.sample n (tensorOf (n :: s) fun i => (w i).1).val (tensorOf (n :: s) fun i => (w i).2).val with
  | some t => fun i => t.val i
  | none => fun _ => 0

/-- `sample()` as a function of the sources. -/
noncomputable def drawnOne (d : BDist) (s : List ℕ) (w : Idx (1 :: s) → ℝ × ℝ) : Idx s → ℝ :=
  match d.sampleOne (tensorOf (1 :: s) fun i => (w i).1).val (tensorOf (1 :: s) fun i => (w i).2).val with
  | some t => fun i => t.val i
  | none => fun _ => 0

end BDist

/-- The entries of `x` in the group `o`: those whose index starts with `o`. -/
noncomputable def block {s outer inner : List ℕ} (o : Idx outer) (x : Idx s → ℝ) : Idx inner → ℝ :=
  fun j => (tensorOf s x).val (o.1 ++ j.1)

end ZhuSuan.Uni
