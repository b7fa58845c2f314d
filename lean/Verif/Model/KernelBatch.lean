import Verif.Model.BatchLogProb
import Verif.Model.GaussianProcess

/-!
# Model: the kernel of the Gaussian process example on batches

`RBFKernel.__call__` of `examples/gaussian_process/utils.py` on tensors of any rank.
-/

set_option autoImplicit false

namespace ZhuSuan.GP

open Shape Batch LogExp

/-- `tf.expand_dims(t, axis)` for `0 ≤ axis ≤ rank`.  (TensorFlow primitive; examples/gaussian_process/utils.py 35–36) -/
def expandDims {α : Type} (t : Tensor α) (axis : ℕ) : Tensor α := ⟨t.shape.insertIdx axis 1, fun idx => t.val (idx.eraseIdx axis)⟩

/-- `RBFKernel.__call__`; `none` is an assertion or a shape that does not fit.  `scale` is `self.k_scale`.
(examples/gaussian_process/utils.py 18–40) -/
noncomputable def kernelT (scale x y : Tensor ℝ) : Option (Tensor ℝ) :=
  let rank := x.shape.length
  if rank < 2 ∨ rank ≠ y.shape.length then none
  else do
    let x := expandDims x (rank - 1)
    let y := expandDims y (rank - 2)
    let kScale ← reshape scale (List.replicate rank 1 ++ [scale.shape.prod])
    let d ← map2 (fun a b : ℝ => a - b) x y
    let q ← map2 (fun a b : ℝ => a / b) (mapT (fun a : ℝ => a ^ 2) d) kScale
    let s ← reduceRow sumRow q
    return mapT (fun a => Real.exp (-a / 2)) s

end ZhuSuan.GP
