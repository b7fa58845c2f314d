import Mathlib.Data.List.Basic
import Mathlib.Data.Int.Notation

/-!
# Shapes: run-time (`List ℕ`) and static (`TensorShape`, partially known), broadcasting

`zipLongest` is the loop of TensorFlow's `_broadcast_shape_helper` (used by
`tf.broadcast_static_shape`) and of `tf.broadcast_dynamic_shape`: right-align the two shapes, fill with
1, combine dimension by dimension.  TensorFlow itself is outside `/repo`; these two definitions are
part of the trusted base (see DESIGN.md).
-/

set_option autoImplicit false

namespace ZhuSuan.Shape

/-- The part of the loop where only the second shape still has dimensions.  (TensorFlow primitive; used at
distributions/utils.py 36–78.) -/
def zipRest {α : Type} (fill : α) (f : α → α → Option α) : List α → Option (List α)
  | [] => some []
  | y :: b => (f fill y).bind (fun d => (zipRest fill f b).map (d :: ·))

/-- Combine two *reversed* shapes dimension by dimension, the shorter one filled with `fill`.  (TensorFlow
primitive; used at distributions/utils.py 36–78.) -/
def zipLongest {α : Type} (fill : α) (f : α → α → Option α) : List α → List α → Option (List α)
  | [], b => zipRest fill f b
  | x :: a, [] => (f x fill).bind (fun d => (zipLongest fill f a []).map (d :: ·))
  | x :: a, y :: b => (f x y).bind (fun d => (zipLongest fill f a b).map (d :: ·))

/-- One dimension at run time.  (TensorFlow primitive; used at distributions/utils.py 43–44.) -/
def dim (x y : ℕ) : Option ℕ :=
  if x = 1 then some y else if y = 1 then some x else if x = y then some x else none

/-- `tf.broadcast_dynamic_shape` and the shape of `a * b`; `none` is a run-time error.  (TensorFlow primitive; used
at distributions/univariate.py 153–155, distributions/utils.py 43–44.) -/
def bcast (a b : List ℕ) : Option (List ℕ) :=
  (zipLongest 1 dim a.reverse b.reverse).map List.reverse

/-- One dimension statically (`None` = unknown).  Outer `none` = incompatible.  (TensorFlow primitive; used at
distributions/utils.py 43–44.) -/
def sdim (x y : Option ℕ) : Option (Option ℕ) :=
  match x, y with
  | some x, some y => (dim x y).map some
  | some x, none => if x > 1 then some (some x) else some none
  | none, some y => if y > 1 then some (some y) else some none
  | none, none => some none

/-- `TensorShape`: `none` is unknown rank.  (`get_shape()`, distributions/utils.py 198, 232) -/
abbrev Static := Option (List (Option ℕ))

/-- `tf.broadcast_static_shape`; outer `none` is `ValueError`.  (TensorFlow primitive; used at
distributions/utils.py 43–44, distributions/base.py 281, framework/bn.py 104–115.) -/
def sbcast (a b : Static) : Option Static :=
  match a, b with
  | some a, some b =>
    (zipLongest (some 1) sdim a.reverse b.reverse).map (fun l => some l.reverse)
  | _, _ => some none

/-- `TensorShape.concatenate`.  (TensorFlow primitive; used at distributions/base.py 278.) -/
def Static.concat (a b : Static) : Static :=
  match a, b with
  | some a, some b => some (a ++ b)
  | _, _ => none

/-- `TensorShape.is_fully_defined`.  (TensorFlow primitive; used at distributions/base.py 174, 209.) -/
def Static.fullyDefined : Static → Bool
  | some l => l.all Option.isSome
  | none => false

/-- `bool(TensorShape)` in TensorFlow 1: the rank is known.  (TensorFlow primitive; used at distributions/utils.py
199, 234, 237, 266, distributions/base.py 276–277.) -/
def Static.truthy (s : Static) : Bool := s.isSome

/-- `shape[:-k]` on a static shape.  (TensorFlow primitive; used at distributions/univariate.py 474–475,
distributions/multivariate.py 141–142.) -/
def Static.dropEnd (s : Static) (k : ℕ) : Static := s.map (fun l => l.take (l.length - k))

/-- Static shape check of `StochasticTensor._check_observation` (bn.py 104–115):
true = accepted, false = `ValueError`. -/
def checkObservation (batch value obs : Static) : Bool :=
  (sbcast (batch.concat value) obs).isSome

/-- Static shape check of `Distribution._check_input_shape` (distributions/base.py 271–288). -/
def checkInputShape (batch value given : Static) : Bool :=
  if given.truthy && batch.truthy && value.truthy then
    (sbcast given (batch.concat value)).isSome
  else true

/-- A size reported by `get_shape_list`: a Python `int` or a scalar of `tf.shape(tensor)`, read at
run time.  (distributions/utils.py 202–203) -/
inductive Size where
  | static (n : ℕ)
  | dynamic (i : ℕ)
  deriving DecidableEq

/-- The value of a reported size at run time.  (distributions/utils.py 201–203) -/
def Size.eval (dyn : List ℕ) : Size → Option ℕ
  | .static n => some n
  | .dynamic i => dyn[i]?

/-- `[(val or dynamic_shape[i]) for i, val in enumerate(...)]` from index `i` on (utils.py 202–203);
`0` and `None` are both false in Python. -/
def shapeListFrom (i : ℕ) : List (Option ℕ) → List Size
  | [] => []
  | v :: l => (match v with
      | some (n + 1) => Size.static (n + 1)
      | _ => Size.dynamic i) :: shapeListFrom (i + 1) l

/-- `get_shape_list` (utils.py 187–204). -/
def getShapeList (s : Static) : Option (List Size) :=
  if s.truthy then s.map (shapeListFrom 0) else none

/-- Python indexing `l[axis]` with a possibly negative index.  (Python; used at distributions/utils.py 218) -/
def pyIndex {α : Type} (l : List α) (axis : ℤ) : Option α :=
  if 0 ≤ axis then l[axis.toNat]?
  else if 0 ≤ axis + l.length then l[(axis + l.length).toNat]? else none

/-- `get_shape_at` evaluated at run time (utils.py 207–219); an empty list is false in Python, so the
dynamic branch is taken.  `none` is an error. -/
def getShapeAt (s : Static) (dyn : List ℕ) (axis : ℤ) : Option ℕ :=
  match getShapeList s with
  | some (x :: xs) => (pyIndex (x :: xs) axis).bind (Size.eval dyn)
  | _ => pyIndex dyn axis

/-- What happens to a checked tensor: refused when the graph is built, refused when it runs, or
passed through.  (distributions/utils.py 222–273) -/
inductive Verdict where
  | buildError
  | runError
  | accepted
  deriving DecidableEq

/-- `assert_rank_at_least` (utils.py 222–241). -/
def assertRankAtLeast (s : Static) (dyn : List ℕ) (k : ℕ) : Verdict :=
  match s with
  | some l => if l.length < k then .buildError else .accepted
  | none => if dyn.length < k then .runError else .accepted

/-- `assert_scalar` (utils.py 256–273); the run-time assertion is always added. -/
def assertScalar (s : Static) (dyn : List ℕ) : Verdict :=
  match s with
  | some l => if l.length ≥ 1 then .buildError else if dyn.length ≠ 0 then .runError else .accepted
  | none => if dyn.length ≠ 0 then .runError else .accepted

/-- `Distribution.batch_shape` / `value_shape` (base.py 168–176, 201–212): the static shape when fully known,
otherwise the dynamic computation. -/
def reportShape (s : Static) (dynamic : List ℕ) : List ℕ :=
  match s with
  | some l => if l.all Option.isSome then l.map (fun d => d.getD 0) else dynamic
  | none => dynamic

/-- `is_same_dynamic_shape` (utils.py 81–98): `tf.cond` on equal ranks, then elementwise equality of
the two concatenations (an error when the lengths differ, which the condition excludes). -/
def isSameDynamicShape (x y : List ℕ) : Bool :=
  if x.length = y.length then
    ((x ++ y).zipWith (fun a b => decide (a = b)) (y ++ x)).all id
  else false

end ZhuSuan.Shape
