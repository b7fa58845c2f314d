import Mathlib.Analysis.SpecialFunctions.Log.Basic
import Verif.Model.TensorExpr

/-!
# `log_sum_exp` and `log_mean_exp` (`zhusuan/utils.py` 153–196)

Entries are real numbers; infinities and NaN are outside this model.
-/

set_option autoImplicit false

namespace ZhuSuan.LogExp
open ZhuSuan.Shape

/-- The reduced axes of an index set to position 0.  (TensorFlow primitive; used at zhusuan/utils.py 169, 191
(`keepdims=True`).) -/
def zeroAxes (axes : List ℕ) : ℕ → List ℕ → List ℕ
  | _, [] => []
  | p, i :: l => (if p ∈ axes then 0 else i) :: zeroAxes axes (p + 1) l

/-- The reduced axes of a shape set to size 1.  (TensorFlow primitive; used at zhusuan/utils.py 169, 191
(`keepdims=True`).) -/
def oneAxes (axes : List ℕ) : ℕ → List ℕ → List ℕ
  | _, [] => []
  | p, d :: s => (if p ∈ axes then 1 else d) :: oneAxes axes (p + 1) s

/-- A TensorFlow reduction with `keepdims=True`: reduced axes stay, with size 1.  (TensorFlow primitive; used at
zhusuan/utils.py 169–171, 191–193.) -/
def reduceKeep {α β : Type} (agg : List α → β) (x : Tensor α) (axes : List ℤ) : Option (Tensor β) :=
  (axes.mapM (normAxis x.shape.length)).map (fun ax =>
    ⟨oneAxes ax 0 x.shape,
     fun idx => agg (((allIndices x.shape).filter (fun full => zeroAxes ax 0 full = idx)).map x.val)⟩)

/-- `axis=None` reduces every axis.  (zhusuan/utils.py 153, 177) -/
def axesOf (rank : ℕ) : Option (List ℤ) → List ℤ
  | none => (List.range rank).map (fun i : ℕ => (i : ℤ))
  | some axes => axes

/-- `tf.reduce_max` of the entries of one cell.  (On an empty cell TensorFlow gives `-inf`; the value
0 here is never used by a theorem.)  (TensorFlow primitive; used at zhusuan/utils.py 169, 191.) -/
def listMax : List ℝ → ℝ
  | [] => 0
  | a :: l => l.foldl max a

/-- `tf.reduce_mean` of the entries of one cell.  (TensorFlow primitive; used at zhusuan/utils.py 192.) -/
noncomputable def listMean (l : List ℝ) : ℝ := l.sum / l.length

/-- An elementwise unary operation.  (TensorFlow primitive; used at zhusuan/utils.py 170, 192.) -/
def mapT {α β : Type} (f : α → β) (t : Tensor α) : Tensor β := ⟨t.shape, fun idx => f (t.val idx)⟩

/-- The argument of `tf.exp` in both functions: `x - x_max` (utils.py 168–169, 190–191). -/
noncomputable def expArg (x : Tensor ℝ) (axis : Option (List ℤ)) : Option (Tensor ℝ) :=
  (reduceKeep listMax x (axesOf x.shape.length axis)).bind (fun xmax => map2 (· - ·) x xmax)

/-- The argument of `tf.log` in `log_sum_exp` (utils.py 169–170). -/
noncomputable def logArgSum (x : Tensor ℝ) (axis : Option (List ℤ)) : Option (Tensor ℝ) :=
  (expArg x axis).bind (fun d => reduceKeep List.sum (mapT Real.exp d) (axesOf x.shape.length axis))

/-- The argument of `tf.log` in `log_mean_exp` (utils.py 191–192). -/
noncomputable def logArgMean (x : Tensor ℝ) (axis : Option (List ℤ)) : Option (Tensor ℝ) :=
  (expArg x axis).bind (fun d => reduceKeep listMean (mapT Real.exp d) (axesOf x.shape.length axis))

/-- `log_sum_exp(x, axis, keepdims)` (utils.py 153–174). -/
noncomputable def logSumExp (x : Tensor ℝ) (axis : Option (List ℤ)) (keepdims : Bool) :
    Option (Tensor ℝ) :=
  (reduceKeep listMax x (axesOf x.shape.length axis)).bind (fun xmax =>
  (logArgSum x axis).bind (fun s =>
  (map2 (· + ·) (mapT Real.log s) xmax).bind (fun ret =>
  if !keepdims then reduceWith List.sum ret (axesOf ret.shape.length axis) else some ret)))

/-- `log_mean_exp(x, axis, keepdims)` (utils.py 177–196). -/
noncomputable def logMeanExp (x : Tensor ℝ) (axis : Option (List ℤ)) (keepdims : Bool) :
    Option (Tensor ℝ) :=
  (reduceKeep listMax x (axesOf x.shape.length axis)).bind (fun xmax =>
  (logArgMean x axis).bind (fun s =>
  (map2 (· + ·) (mapT Real.log s) xmax).bind (fun ret =>
  if !keepdims then reduceWith listMean ret (axesOf ret.shape.length axis) else some ret)))

end ZhuSuan.LogExp
