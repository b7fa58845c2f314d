import Mathlib.Logic.Basic

/-!
# `TensorArithmeticMixin` (`zhusuan/utils.py` 18–150) and Python's operator dispatch

Operands are Python numbers, TensorFlow tensors, and objects of a class using the mixin
(`StochasticTensor`, `VariationalObjective`), which carry the tensor `tf.convert_to_tensor` returns.
The TensorFlow operations are uninterpreted functions of the converted operands.
-/

set_option autoImplicit false

namespace ZhuSuan.Arith

/-- The binary operators that the mixin overloads.  (zhusuan/utils.py 33–114) -/
inductive Op where
  | add | sub | mul | truediv | floordiv | mod | pow | and_ | or_ | xor | lt | le | gt | ge
  deriving DecidableEq

/-- The unary operators that it overloads.  (zhusuan/utils.py 27–31, 82–83) -/
inductive UOp where
  | abs | neg | invert
  deriving DecidableEq

/-- The TensorFlow functions called.  (zhusuan/utils.py 33–114) -/
inductive TF where
  | add | subtract | multiply | truediv | floordiv | mod | pow | logical_and | logical_or
  | logical_xor | less | less_equal | greater | greater_equal
  deriving DecidableEq

/-- The unary TensorFlow functions called (zhusuan/utils.py 27–31, 82–83). -/
inductive TFU where
  | abs | negative | logical_not
  deriving DecidableEq

/-- A Python operand: a number, a tensor, or a mixin object with its identity and its tensor.  (the operands `self`
and `other` of zhusuan/utils.py 27–118) -/
inductive Val (N T : Type) where
  | num (n : N)
  | tensor (t : T)
  | obj (id : Nat) (t : T)

/-- Interpretation of the operations: TensorFlow's on tensors, Python's on two numbers, conversion of a
number to a tensor.  (the calls of zhusuan/utils.py 27–118) -/
structure Ops (N T I : Type) where
  tf : TF → T → T → T
  tfu : TFU → T → T
  py : Op → N → N → N
  pyu : UOp → N → N
  item : T → I → T
  numItem : N → I → N
  ofNum : N → T

variable {N T I : Type}

/-- `tf.convert_to_tensor`.  (implicit in the calls of zhusuan/utils.py 27–114 and explicit in 118; registered at
framework/bn.py 306 and variational/base.py 186) -/
def Val.convert (o : Ops N T I) : Val N T → T
  | .num n => o.ofNum n
  | .tensor t => t
  | .obj _ t => t

/-- The mixin's forward methods, `self.__op__(other)` (utils.py 33–114): the TensorFlow function and
whether `self` is the first argument. -/
def forward : Op → TF × Bool
  | .add => (.add, true)
  | .sub => (.subtract, true)
  | .mul => (.multiply, true)
  | .truediv => (.truediv, true)
  | .floordiv => (.floordiv, true)
  | .mod => (.mod, true)
  | .pow => (.pow, true)
  | .and_ => (.logical_and, true)
  | .or_ => (.logical_or, true)
  | .xor => (.logical_xor, true)
  | .lt => (.less, true)
  | .le => (.less_equal, true)
  | .gt => (.greater, true)
  | .ge => (.greater_equal, true)

/-- The mixin's reflected methods, called on the right operand when the left one does not know the
operation (utils.py 36–102): `self.__rop__(other)`.  Python reflects `<` to `>`, `<=` to `>=` and back,
so for the comparisons these are the forward methods 104–114 of the mirrored comparison. -/
def reflected : Op → TF × Bool
  | .add => (.add, false)
  | .sub => (.subtract, false)
  | .mul => (.multiply, false)
  | .truediv => (.truediv, false)
  | .floordiv => (.floordiv, false)
  | .mod => (.mod, false)
  | .pow => (.pow, false)
  | .and_ => (.logical_and, false)
  | .or_ => (.logical_or, false)
  | .xor => (.logical_xor, false)
  | .lt => (.greater, true)
  | .le => (.greater_equal, true)
  | .gt => (.less, true)
  | .ge => (.less_equal, true)

/-- The mixin's unary methods (utils.py 27–31, 82–83). -/
def unaryFn : UOp → TFU
  | .abs => .abs
  | .neg => .negative
  | .invert => .logical_not

/-- TensorFlow's own overloads on `tf.Tensor` (trusted): the left operand first.  (the counterpart of
zhusuan/utils.py 33–114) -/
def tensorFn : Op → TF
  | .add => .add
  | .sub => .subtract
  | .mul => .multiply
  | .truediv => .truediv
  | .floordiv => .floordiv
  | .mod => .mod
  | .pow => .pow
  | .and_ => .logical_and
  | .or_ => .logical_or
  | .xor => .logical_xor
  | .lt => .less
  | .le => .less_equal
  | .gt => .greater
  | .ge => .greater_equal

/-- TensorFlow's own unary overloads on `tf.Tensor` (trusted; the counterpart of zhusuan/utils.py 27–31, 82–83). -/
def tensorUFn : UOp → TFU
  | .abs => .abs
  | .neg => .negative
  | .invert => .logical_not

/-- A method given as a TensorFlow function and argument order.  (the bodies of zhusuan/utils.py 33–114) -/
def call (o : Ops N T I) (m : TF × Bool) (self other : Val N T) : Val N T :=
  if m.2 then .tensor (o.tf m.1 (self.convert o) (other.convert o))
  else .tensor (o.tf m.1 (other.convert o) (self.convert o))

/-- Python's `a op b`: the left operand's method if it has one for this right operand (tensors and
mixin objects have; numbers do not know tensors and return `NotImplemented`), else the right operand's
reflected method.  For a number and a `tf.Tensor` the reflected overload of TensorFlow keeps the operand
order.  (Python semantics around zhusuan/utils.py 33–114) -/
def binop (o : Ops N T I) (op : Op) (a b : Val N T) : Val N T :=
  match a, b with
  | .num m, .num n => .num (o.py op m n)
  | .num m, .tensor t => .tensor (o.tf (tensorFn op) (o.ofNum m) t)
  | .num m, .obj i t => call o (reflected op) (.obj i t) (.num m)
  | .tensor s, b => .tensor (o.tf (tensorFn op) s (b.convert o))
  | .obj i s, b => call o (forward op) (.obj i s) b

/-- Python's unary operators.  (zhusuan/utils.py 27–31, 82–83) -/
def unop (o : Ops N T I) (op : UOp) (a : Val N T) : Val N T :=
  match a with
  | .num n => .num (o.pyu op n)
  | .tensor t => .tensor (o.tfu (tensorUFn op) t)
  | .obj _ t => .tensor (o.tfu (unaryFn op) t)

/-- `a[item]` (utils.py 117–118). -/
def getitem (o : Ops N T I) (a : Val N T) (i : I) : Val N T :=
  match a with
  | .num n => .num (o.numItem n i)
  | .tensor t => .tensor (o.item t i)
  | .obj _ t => .tensor (o.item t i)

/-- An arithmetic expression as the user writes it.  (client code using zhusuan/utils.py 27–118) -/
inductive Exp (N T I : Type) where
  | leaf (v : Val N T)
  | bin (op : Op) (a b : Exp N T I)
  | un (op : UOp) (a : Exp N T I)
  | item (a : Exp N T I) (i : I)

/-- Evaluation with Python's dispatch.  (client code using zhusuan/utils.py 27–118) -/
def Exp.eval (o : Ops N T I) : Exp N T I → Val N T
  | leaf v => v
  | bin op a b => binop o op (a.eval o) (b.eval o)
  | un op a => unop o op (a.eval o)
  | item a i => getitem o (a.eval o) i

/-- `bool(x)` and iteration: the mixin raises `TypeError` (utils.py 130–150). -/
inductive Raise (α : Type) where
  | typeError
  | ret (a : α)

/-- `__iter__` (zhusuan/utils.py 130–132). -/
def iter {α : Type} (elems : T → α) : Val N T → Raise α
  | .obj _ _ => .typeError
  | .tensor t => .ret (elems t)
  | .num _ => .typeError

/-- `x == y` and membership: identity of objects (utils.py 121–127).  Only for two mixin objects. -/
def objEq : Val N T → Val N T → Option Bool
  | .obj i _, .obj j _ => some (i == j)
  | _, _ => none

end ZhuSuan.Arith
