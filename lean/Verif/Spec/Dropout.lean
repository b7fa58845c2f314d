import Mathlib.Analysis.SpecialFunctions.Sqrt
import Verif.Spec.Categorical
import Verif.Spec.Vae

/-!
# What variational dropout is about

A net whose layers multiply their inputs by noise, apply a matrix, standardize the result and cut it off at zero.
-/

set_option autoImplicit false

open MeasureTheory ProbabilityTheory

namespace ZhuSuan.Dropout

/-- The outputs of a net with fixed centres and variances for one input `x`: layer `l` has the matrix `A l`, the offset `β l`, the centres `μ l`
and the variances `v l`. -/
noncomputable def forward {sizes : ℕ → ℕ} (A : (l : ℕ) → Fin (sizes l) → Fin (sizes (l + 1)) → ℝ) (β μ v : (l : ℕ) → Fin (sizes (l + 1)) → ℝ)
    (noise : (l : ℕ) → Fin (sizes l) → ℝ) (x : Fin (sizes 0) → ℝ) : (l : ℕ) → Fin (sizes l) → ℝ
  | 0 => x
  | l + 1 => fun j => max 0 ((∑ i, noise l i * forward A β μ v noise x l i * A l i j - μ l j) / Real.sqrt (v l j + 0.001) + β l j)

/-- The outputs of a net for all inputs `x r` together, where every layer standardizes its values over all of them. -/
noncomputable def forwardAll {R : Type} [Fintype R] {sizes : ℕ → ℕ} (A : (l : ℕ) → Fin (sizes l) → Fin (sizes (l + 1)) → ℝ)
    (β : (l : ℕ) → Fin (sizes (l + 1)) → ℝ) (noise : R → (l : ℕ) → Fin (sizes l) → ℝ) (x : R → Fin (sizes 0) → ℝ) :
    (l : ℕ) → R → Fin (sizes l) → ℝ
  | 0 => x
  | l + 1 => fun r j =>
    let a : R → ℝ := fun s => ∑ i, noise s l i * forwardAll A β noise x l s i * A l i j
    let mean := (∑ s, a s) / Fintype.card R
    let variance := (∑ s, a s ^ 2) / Fintype.card R - mean ^ 2
    max 0 ((a r - mean) / Real.sqrt (variance + 0.001) + β l j)

/-- The noise of layer `l`; the net has `L` layers. -/
noncomputable def noiseAt {L : ℕ} {sizes : ℕ → ℕ} (e : (l : Fin L) × Fin (sizes l) → ℝ) : (l : ℕ) → Fin (sizes l) → ℝ :=
  fun l i => if h : l < L then e ⟨⟨l, h⟩, i⟩ else 0

/-- Independent normal noise with mean one and the given variances. -/
noncomputable def ones {ι : Type} [Fintype ι] (v : ι → NNReal) : Measure (ι → ℝ) := Measure.pi fun j => gaussianReal 1 (v j)

end ZhuSuan.Dropout
