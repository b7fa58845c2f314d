import Mathlib.Analysis.SpecialFunctions.Log.Basic
import Mathlib.Algebra.BigOperators.Group.Finset.Basic
import Mathlib.Data.Fintype.BigOperators

/-!
# Values with TensorFlow gradients

A `Dual` is a number of a TensorFlow graph together with the derivative that `tf.gradients` reports for
it along one direction of the parameters (for a gradient with respect to many parameters, take each
direction in turn).  Operations follow the registered gradients; `tf.stop_gradient` keeps the value and
has derivative 0.
-/

set_option autoImplicit false

namespace ZhuSuan.Grad

/-- A number and its `tf.gradients` derivative.  (the tensors of
variational/{exclusive_kl,inclusive_kl,monte_carlo}.py) -/
@[ext] structure Dual where
  val : ℝ
  der : ℝ

namespace Dual

/-- A constant.  (Python numbers, e.g. exclusive_kl.py 201) -/
def const (c : ℝ) : Dual := ⟨c, 0⟩

instance : Add Dual := ⟨fun a b => ⟨a.val + b.val, a.der + b.der⟩⟩
instance : Sub Dual := ⟨fun a b => ⟨a.val - b.val, a.der - b.der⟩⟩
instance : Neg Dual := ⟨fun a => ⟨-a.val, -a.der⟩⟩
instance : Mul Dual := ⟨fun a b => ⟨a.val * b.val, a.der * b.val + a.val * b.der⟩⟩
noncomputable instance : Div Dual :=
  ⟨fun a b => ⟨a.val / b.val, (a.der * b.val - a.val * b.der) / b.val ^ 2⟩⟩

/-- `tf.exp`.  (TensorFlow primitive; used at zhusuan/utils.py 192, inclusive_kl.py 140.) -/
noncomputable def exp (a : Dual) : Dual := ⟨Real.exp a.val, Real.exp a.val * a.der⟩

/-- `tf.log`.  (TensorFlow primitive; used at zhusuan/utils.py 192.) -/
noncomputable def log (a : Dual) : Dual := ⟨Real.log a.val, a.der / a.val⟩

/-- `tf.square`.  (TensorFlow primitive; used at exclusive_kl.py 201.) -/
def square (a : Dual) : Dual := ⟨a.val ^ 2, 2 * a.val * a.der⟩

/-- `tf.stop_gradient`.  (TensorFlow primitive; used at exclusive_kl.py 202, 223, monte_carlo.py 224,
inclusive_kl.py 141.) -/
def stopGradient (a : Dual) : Dual := ⟨a.val, 0⟩

end Dual

open Dual

variable {K : ℕ}

/-- `tf.reduce_sum` over an axis of size `K`.  (TensorFlow primitive; used at monte_carlo.py 199, 223,
inclusive_kl.py 142–144.) -/
noncomputable def reduceSum (x : Fin K → Dual) : Dual := ⟨∑ i, (x i).val, ∑ i, (x i).der⟩

/-- `tf.reduce_mean` over an axis of size `K`.  (TensorFlow primitive; used at exclusive_kl.py 136, 204, 226.) -/
noncomputable def reduceMean (x : Fin K → Dual) : Dual := ⟨(∑ i, (x i).val) / K, (∑ i, (x i).der) / K⟩

/-- The largest value.  (the value of `tf.reduce_max`, zhusuan/utils.py 191) -/
noncomputable def maxVal (x : Fin (K + 1) → ℝ) : ℝ := Finset.univ.sup' Finset.univ_nonempty x

open Classical in
/-- `tf.reduce_max`: its gradient is shared equally by the entries that attain the maximum.  (TensorFlow primitive;
used at zhusuan/utils.py 191, inclusive_kl.py 139.) -/
noncomputable def reduceMax (x : Fin (K + 1) → Dual) : Dual :=
  let m := maxVal (fun i => (x i).val)
  let arg : Finset (Fin (K + 1)) := Finset.univ.filter (fun i => (x i).val = m)
  ⟨m, (∑ i ∈ arg, (x i).der) / arg.card⟩

/-- `log_mean_exp(x, axis)` (`zhusuan/utils.py` 177–196) along an axis of size `K + 1`; the final
`reduce_mean` is over an axis of size 1. -/
noncomputable def logMeanExp (x : Fin (K + 1) → Dual) : Dual :=
  let m := reduceMax x
  Dual.log (reduceMean (fun i => Dual.exp (x i - m))) + m

end ZhuSuan.Grad
