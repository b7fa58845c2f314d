import Mathlib.Data.Real.Basic
import Mathlib.Algebra.Order.Archimedean.Real.Basic
import Mathlib.Algebra.Order.Group.Unbundled.Abs

/-!
# `AdamaxOptimizer`

The optimizer of `examples/utils/optimizers.py`, for one entry of a variable: all operations are entry by entry.  Casts to the type of the
variable are left out; `eps` is `1e-8`, or `1e-7` for variables of 16 bits.
-/

set_option autoImplicit false

namespace ZhuSuan.Adamax

/-- The constructor's arguments.  (examples/utils/optimizers.py 18–23) -/
structure Cfg where
  lr : ℝ
  beta1 : ℝ
  beta2 : ℝ

/-- `learning_rate=0.001, beta1=0.9, beta2=0.999`.  (examples/utils/optimizers.py 18–19) -/
noncomputable def defaults : Cfg := ⟨0.001, 0.9, 0.999⟩

/-- `eps`.  (examples/utils/optimizers.py 45–49) -/
noncomputable def eps (float16 : Bool) : ℝ := if float16 then 1e-7 else 1e-8

/-- One entry of the variable and of its slots.  (examples/utils/optimizers.py 51, 53, 57) -/
structure St where
  var : ℝ
  v : ℝ
  m : ℝ

/-- `_create_slots`: the slots are zero.  (examples/utils/optimizers.py 35–39) -/
def init (x : ℝ) : St := ⟨x, 0, 0⟩

/-- `_apply_dense`.  (examples/utils/optimizers.py 41–58) -/
noncomputable def applyDense (c : Cfg) (float16 : Bool) (s : St) (grad : ℝ) : St :=
  let v := c.beta1 * s.v + (1 - c.beta1) * grad
  let m := max (c.beta2 * s.m + eps float16) |grad|
  let g := v / m
  ⟨s.var - c.lr * g, v, m⟩

/-- The state after `t` runs of the train operation; the gradient may depend on the run and on the value of the variable.
(examples/utils/optimizers.py 41–58) -/
noncomputable def run (c : Cfg) (float16 : Bool) (grad : ℕ → ℝ → ℝ) (x : ℝ) : ℕ → St
  | 0 => init x
  | t + 1 => let s := run c float16 grad x t; applyDense c float16 s (grad t s.var)

/-- `_apply_dense` or `_apply_sparse`, the latter being given an `IndexedSlices` gradient; `none` is `NotImplementedError`.
(examples/utils/optimizers.py 41–61) -/
noncomputable def apply (c : Cfg) (float16 sparse : Bool) (s : St) (grad : ℝ) : Option St :=
  if sparse then none else some (applyDense c float16 s grad)

end ZhuSuan.Adamax
