import Verif.Model.Shape

/-!
# Argument guards of `zhusuan/distributions`
-/

set_option autoImplicit false

namespace ZhuSuan.Guards

/-- Python exceptions (and TensorFlow's run-time assertion failure).  (raised by distributions/utils.py 111–308,
distributions/base.py 90–114, distributions/univariate.py 89–121) -/
inductive Err where
  | typeError
  | valueError
  | runError
  deriving DecidableEq

section
variable {D : Type} [DecidableEq D]

/-- `dtypes_set and (dtype not in dtypes_set)` (utils.py 125). -/
def disallowed (allowed : Option (List D)) (t : D) : Bool :=
  match allowed with
  | some l => decide (t ∉ l)
  | none => false

/-- `set(dtypes) if dtypes else None` (utils.py 122). -/
def dtypesSet : Option (List D) → Option (List D)
  | some [] => none
  | d => d

/-- The loop of `assert_same_dtype_in` (utils.py 124–143).  `allowed = none` stands for both
`dtypes=None` and the empty list (`if dtypes`). -/
def sameDtypeLoop (allowed : Option (List D)) : Option D → List D → Except Err (Option D)
  | e, [] => .ok e
  | e, t :: ts =>
    if disallowed allowed t then .error .typeError
    else match e with
      | none => sameDtypeLoop allowed (some t) ts
      | some d => if d ≠ t then .error .typeError else sameDtypeLoop allowed (some d) ts

/-- `assert_same_dtype_in` (utils.py 111–143), on the dtypes of the tensors. -/
def assertSameDtypeIn (ts : List D) (dtypes : Option (List D)) : Except Err (Option D) :=
  sameDtypeLoop (dtypesSet dtypes) none ts

/-- `assert_dtype_in_dtypes` (utils.py 168–171). -/
def assertDtypeInDtypes (dtype : D) (dtypes : List D) : Except Err Unit :=
  if dtype ∉ dtypes then .error .typeError else .ok ()

end

/-- The TensorFlow dtypes named in `floating_dtypes`/`integer_dtypes` (utils.py 101–108), and the rest. -/
inductive DType where
  | float16 | float32 | float64 | int16 | int32 | int64 | other (n : ℕ)
  deriving DecidableEq

/-- utils.py 101–103. -/
def floatingDtypes : List DType := [.float16, .float32, .float64]
/-- utils.py 106–108. -/
def integerDtypes : List DType := [.int16, .int32, .int64]
/-- `assert_same_float_dtype` (utils.py 146–153). -/
def assertSameFloatDtype (ts : List DType) : Except Err (Option DType) :=
  assertSameDtypeIn ts (some floatingDtypes)
/-- `assert_same_float_or_int_dtype` (utils.py 156–165). -/
def assertSameFloatOrIntDtype (ts : List DType) : Except Err (Option DType) :=
  assertSameDtypeIn ts (some (floatingDtypes ++ integerDtypes))

/-- A Python argument: a `bool` (which is an `int`), an `int`, a `float`, or any other object; of the
latter only the result of `tf.convert_to_tensor(value, tf.int32)` matters: failure, or a tensor given
by its run-time rank and entries. -/
inductive PyArg where
  | bool (b : Bool)
  | int (n : ℤ)
  | float
  | obj (conv : Option (ℕ × List ℤ))

/-- A checked argument: the Python value itself, or a tensor.  (distributions/utils.py 288, 308) -/
inductive Checked where
  | py (n : ℤ)
  | tensor (rank : ℕ) (entries : List ℤ)
  deriving DecidableEq

/-- `int(value)` of a Python `bool`.  (Python; a `bool` is an `int` at distributions/utils.py 287) -/
def ofBool (b : Bool) : ℤ := if b then 1 else 0

/-- `assert_positive_int32_scalar` (utils.py 276–308).  A `float` fails the first test, then raises
`TypeError`. -/
def assertPositiveInt32Scalar : PyArg → Except Err Checked
  | .bool b => if ofBool b > 0 then .ok (.py (ofBool b)) else .error .valueError
  | .int n => if n > 0 then .ok (.py n) else .error .valueError
  | .float => .error .typeError
  | .obj none => .error .typeError
  | .obj (some (r, vs)) =>
    if r ≠ 0 then .error .runError
    else if vs.all (fun v => decide (v > 0)) then .ok (.tensor r vs) else .error .runError

/-- The `group_ndims` part of `Distribution.__init__` (base.py 90–114).  A `float` is not an `int` and
`tf.convert_to_tensor(1.5, tf.int32)` raises `TypeError`. -/
def checkGroupNdims (groupEventNdims : Bool) : PyArg → Except Err Checked
  | a =>
    if groupEventNdims then .error .valueError
    else match a with
      | .bool b => .ok (.py (ofBool b))
      | .int n => if n < 0 then .error .valueError else .ok (.py n)
      | .float => .error .typeError
      | .obj none => .error .typeError
      | .obj (some (r, vs)) =>
        if r ≠ 0 then .error .runError
        else if vs.all (fun v => decide (v ≥ 0)) then .ok (.tensor r vs) else .error .runError

/-- The `n_experiments` part of `Binomial.__init__` (univariate.py 975–992). -/
def checkNExperiments : PyArg → Except Err Checked
  | .bool b => if ofBool b ≤ 0 then .error .valueError else .ok (.py (ofBool b))
  | .int n => if n ≤ 0 then .error .valueError else .ok (.py n)
  | .float => .error .typeError
  | .obj none => .error .typeError
  | .obj (some (r, vs)) =>
    if r ≠ 0 then .error .runError
    else if vs.all (fun v => decide (v > 0)) then .ok (.tensor r vs) else .error .runError

/-- The parameter part of `Normal.__init__` and `FoldNormal.__init__` (univariate.py 89–121, 234–266):
positional sentinel, exactly one of `std`/`logstd`, same floating dtype, static broadcast. -/
def normalCtor {P : Type} (dtype : P → DType) (static : P → Shape.Static) (sentinel : Bool)
    (mean : P) (std logstd : Option P) : Except Err (P × (P ⊕ P)) :=
  if sentinel then .error .valueError
  else match std, logstd with
    | none, none => .error .valueError
    | some _, some _ => .error .valueError
    | some s, none =>
      match assertSameFloatDtype [dtype mean, dtype s] with
      | .error e => .error e
      | .ok _ => if (Shape.sbcast (static mean) (static s)).isNone then .error .valueError
                 else .ok (mean, .inl s)
    | none, some l =>
      match assertSameFloatDtype [dtype mean, dtype l] with
      | .error e => .error e
      | .ok _ => if (Shape.sbcast (static mean) (static l)).isNone then .error .valueError
                 else .ok (mean, .inr l)

end ZhuSuan.Guards
