import Verif.Model.LogExp
import Verif.Spec.Tensor

/-! # What the two functions should compute -/

set_option autoImplicit false

namespace ZhuSuan.LogExp
open ZhuSuan.Shape

/-- The axes are axes of a rank-`n` tensor. -/
def ValidAxes (n : ℕ) (axes : List ℤ) : Prop := ∀ a ∈ axes, -(n : ℤ) ≤ a ∧ a < n

/-- The axes that the argument `axis` asks for in a rank-`n` tensor: every axis for `None`. -/
def wantedAxes (n : ℕ) : Option (List ℤ) → List ℤ
  | none => (List.range n).map Int.ofNat
  | some axes => axes

/-- log of the sum of the exponentials of a list of numbers. -/
noncomputable def LSE (l : List ℝ) : ℝ := Real.log (l.map Real.exp).sum

/-- log of the mean of the exponentials of a list of numbers. -/
noncomputable def LME (l : List ℝ) : ℝ := Real.log ((l.map Real.exp).sum / l.length)

/-- No axis of the tensor is empty. -/
def NonEmpty {α : Type} (x : Tensor α) : Prop := ∀ d ∈ x.shape, 0 < d

end ZhuSuan.LogExp
