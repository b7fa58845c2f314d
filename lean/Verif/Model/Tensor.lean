import Mathlib.Algebra.Group.Defs
import Mathlib.Algebra.BigOperators.Group.List.Basic
import Verif.Model.Shape

/-!
# Tensors and the broadcasting helpers of `zhusuan/distributions/utils.py`

A run-time tensor is a shape together with a value for every index (a list with one position per
axis).  Values at indices outside the shape are junk and never mentioned by a theorem.
-/

set_option autoImplicit false

namespace ZhuSuan.Shape

/-- A run-time tensor.  (the values of the tensors of distributions/utils.py 36–78) -/
structure Tensor (α : Type) where
  shape : List ℕ
  val : List ℕ → α

/-- Where a tensor of shape `a` is read when it is broadcast and the result is indexed by `idx`
(TensorFlow/NumPy semantics): leading extra axes are dropped, size-1 axes are read at 0.  (TensorFlow broadcasting;
used at distributions/utils.py 43–44.) -/
def projIdx (a : List ℕ) (idx : List ℕ) : List ℕ :=
  List.zipWith (fun d i => if d = 1 then 0 else i) a (idx.drop (idx.length - a.length))

/-- A binary elementwise TensorFlow operation with broadcasting; `none` is a run-time error.  (TensorFlow
broadcasting; used at distributions/utils.py 43–44.) -/
def map2 {α β γ : Type} (f : α → β → γ) (x : Tensor α) (y : Tensor β) : Option (Tensor γ) :=
  (bcast x.shape y.shape).map (fun c =>
    ⟨c, fun idx => f (x.val (projIdx x.shape idx)) (y.val (projIdx y.shape idx))⟩)

/-- `tf.ones_like`.  (TensorFlow primitive; used at distributions/utils.py 43–44.) -/
def onesLike {α β : Type} [One β] (x : Tensor α) : Tensor β := ⟨x.shape, fun _ => 1⟩

/-- A graph tensor: what is known of its shape when the graph is built, and its run-time value.  (a tensor of
distributions/utils.py 36–78) -/
structure STensor (α : Type) where
  static : Static
  rt : Tensor α

/-- Result of building and then running a piece of graph: a Python `ValueError` while building, a
TensorFlow error while running, or a result.  (distributions/utils.py 36–78) -/
inductive Outcome (α : Type) where
  | valueError
  | runError
  | ok (a : α)

/-- `explicit_broadcast` (utils.py 36–49): `x *= ones_like(y)`, then `y *= ones_like(x)` with the new
`x`; TensorFlow's static shape function runs first, for both products. -/
def explicitBroadcast {α : Type} [Mul α] [One α] (x y : STensor α) :
    Outcome (STensor α × STensor α) :=
  match sbcast x.static y.static with
  | none => .valueError
  | some s1 =>
    match sbcast y.static s1 with
    | none => .valueError
    | some s2 =>
      match map2 (· * ·) x.rt (onesLike y.rt : Tensor α) with
      | none => .runError
      | some x1 =>
        match map2 (· * ·) y.rt (onesLike x1 : Tensor α) with
        | none => .runError
        | some y1 => .ok (⟨s1, x1⟩, ⟨s2, y1⟩)

/-- `maybe_explicit_broadcast` (utils.py 52–78), branch by branch. -/
def maybeExplicitBroadcast {α : Type} [Mul α] [One α] (x y : STensor α) :
    Outcome (STensor α × STensor α) :=
  if !(x.static.truthy && y.static.truthy) then explicitBroadcast x y
  else if x.static.map List.length ≠ y.static.map List.length then explicitBroadcast x y
  else if x.static.fullyDefined && y.static.fullyDefined then
    if x.static ≠ y.static then explicitBroadcast x y else .ok (x, y)
  else explicitBroadcast x y

/-- All indices of a shape, in row-major order.  (the entries of a tensor, e.g. distributions/base.py 304) -/
def allIndices : List ℕ → List (List ℕ)
  | [] => [[]]
  | d :: s => (List.range d).flatMap (fun i => (allIndices s).map (i :: ·))

/-- Keep the entries of `l` whose position (starting from `i`) is not in `axes`.  (TensorFlow primitive; used at
distributions/base.py 304, 320.) -/
def keepAxes {α : Type} (axes : List ℕ) : ℕ → List α → List α
  | _, [] => []
  | i, x :: l => if i ∈ axes then keepAxes axes (i + 1) l else x :: keepAxes axes (i + 1) l

/-- TensorFlow's axis normalisation: a negative axis counts from the end; out of range is an error.  (TensorFlow
primitive; used at distributions/base.py 304, 320.) -/
def normAxis (rank : ℕ) (a : ℤ) : Option ℕ :=
  if 0 ≤ a ∧ a < rank then some a.toNat
  else if a < 0 ∧ 0 ≤ a + rank then some (a + rank).toNat
  else none

/-- `tf.reduce_sum(x, axes)` / `tf.reduce_prod(x, axes)`, the operation being the sum of a list in the
monoid `α` when `agg` is `List.sum` and their product when it is `List.prod`: entry `idx` aggregates
the entries whose kept coordinates are `idx`.  (TensorFlow primitive; used at distributions/base.py 304, 320.) -/
def reduceWith {α β : Type} (agg : List α → β) (x : Tensor α) (axes : List ℤ) :
    Option (Tensor β) :=
  (axes.mapM (normAxis x.shape.length)).map (fun ax =>
    ⟨keepAxes ax 0 x.shape,
     fun idx => agg (((allIndices x.shape).filter (fun full => keepAxes ax 0 full = idx)).map x.val)⟩)

/-- `tf.range(-g, 0)`.  (TensorFlow primitive; used at distributions/base.py 304, 320.) -/
def rangeNeg (g : ℕ) : List ℤ := (List.range g).map (fun i : ℕ => (i : ℤ) - (g : ℤ))

end ZhuSuan.Shape
