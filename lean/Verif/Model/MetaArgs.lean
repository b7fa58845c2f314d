import Mathlib.Logic.Function.Basic
import Mathlib.Data.List.Basic

/-!
# Model: how the arguments of a model function travel to it, and inherited documentation

The arguments of `MetaBayesianNet` and of the functions made by `meta_bayesian_net`, with the containers that hold them as objects on a heap, and
the decorator `doc_inherit`.  Scopes, observations and the contexts are in `Model/Vars.lean` and `Model/Observe.lean`.
-/

set_option autoImplicit false

namespace ZhuSuan.MetaArgs

/-! ## Arguments -/

section
variable {V : Type}

/-- A container of arguments: a list for the positional ones, a dictionary for the named ones; its items in order.  (framework/meta_bn.py 63–64) -/
structure Box (V : Type) where
  pos : List V
  named : List (String × V)

/-- The heap: the containers at their addresses; `next` is the first address that was not used.  (Python objects) -/
structure Heap (V : Type) where
  at_ : ℕ → Box V
  next : ℕ

/-- A new object.  (Python) -/
def Heap.alloc (h : Heap V) (b : Box V) : Heap V × ℕ := (⟨fun a => if a = h.next then b else h.at_ a, h.next + 1⟩, h.next)

/-- Any change of a container in place: `append`, assignment to an item, `pop`, …  (Python) -/
def Heap.write (h : Heap V) (a : ℕ) (b : Box V) : Heap V := ⟨fun a' => if a' = a then b else h.at_ a', h.next⟩

/-- `MetaBayesianNet`: the addresses of `_args` and `_kwargs`, or `None`.  (framework/meta_bn.py 63–64) -/
structure Meta where
  args : Option ℕ
  kwargs : Option ℕ

/-- `copy.copy(x)`: a new container with the same items; `None` stays `None`.  (python; framework/meta_bn.py 63–64) -/
def copy (h : Heap V) : Option ℕ → Heap V × Option ℕ
  | none => (h, none)
  | some a => let (h', a') := h.alloc (h.at_ a); (h', some a')

/-- `MetaBayesianNet(f, args=args, kwargs=kwargs)`.  (framework/meta_bn.py 54–67) -/
def init (h : Heap V) (args kwargs : Option ℕ) : Heap V × Meta :=
  let (h1, a) := copy h args
  let (h2, k) := copy h1 kwargs
  (h2, ⟨a, k⟩)

/-- The arguments of a call of the model function; the function gets containers of its own.  (Python calls) -/
abbrev CallArgs (V : Type) := List V × List (String × V)

/-- `func(*self._args, **self._kwargs)`: unpacking `None` is a `TypeError`, here `none`.  (framework/meta_bn.py 87–91) -/
def observe (h : Heap V) (m : Meta) : Option (CallArgs V) := do
  let a ← m.args
  let k ← m.kwargs
  return ((h.at_ a).pos, (h.at_ k).named)

/-- A function made by `meta_bayesian_net`, called as `build(*pos, **named)`: Python makes a tuple and a dictionary of the arguments.
(framework/meta_bn.py 140–148) -/
def decorated (h : Heap V) (pos : List V) (named : List (String × V)) : Heap V × Meta :=
  let (h1, a) := h.alloc ⟨pos, []⟩
  let (h2, k) := h1.alloc ⟨[], named⟩
  init h2 (some a) (some k)

/-- What happens between the construction and a call of `observe`: anybody who has the address of a container changes it.  The code never
gives away the addresses of `_args` and `_kwargs`: calls unpack them.  (framework/meta_bn.py 87–91) -/
def writes (h : Heap V) : List (ℕ × Box V) → Heap V
  | [] => h
  | (a, b) :: l => writes (h.write a b) l

end

/-! ## `doc_inherit` -/

/-- An attribute in the dictionary of a class: a function with its documentation, or one that was decorated with `doc_inherit`.
(zhusuan/utils.py 231–255) -/
inductive Attr (D : Type) where
  | plain (doc : D)
  | inherit

/-- What looking up the documentation gives.  (zhusuan/utils.py 284–288; python) -/
inductive Found (D : Type) where
  | doc (d : D)
  | nameError
  | recursionError

section
variable {D : Type}

/-- The first class of a list whose dictionary has the attribute.  (Python attribute lookup) -/
def first : List (Option (Attr D)) → Option (Attr D)
  | [] => none
  | some a :: _ => some a
  | none :: l => first l

/-- `obj.foo.__doc__` after the lookup has found a decorated function: `__get__(obj, type(obj))`.  `parents` are the entries of the classes after
`type(obj)` in its method resolution order; `super(cls, obj)` calls `__get__` of a decorated parent with the same `obj`, whose type is
again `type(obj)`.  The number is the depth that is left before Python raises `RecursionError`.  (zhusuan/utils.py 257–270, 284–288) -/
def getWithInst : ℕ → List (Option (Attr D)) → Found D
  | 0, _ => .recursionError
  | n + 1, parents =>
    match first parents with
    | none => .nameError
    | some (.plain d) => .doc d
    | some .inherit => getWithInst n parents

/-- `cls.foo.__doc__` after the lookup has found a decorated function in the class itself: the loop over `cls.__mro__[1:]`.  `getattr(parent, …)` is the
lookup in the resolution order of the parent, which for one base class per class is the rest of the list.  (zhusuan/utils.py 272–288) -/
def getNoInst : List (Option (Attr D)) → Found D
  | [] => .nameError
  | none :: l => getNoInst l
  | some (.plain d) :: _ => .doc d
  | some .inherit :: l => getNoInst l

/-- The arguments with which the function is called by `obj.foo(*args)`: `if obj:` looks at the truth value of the instance.
(zhusuan/utils.py 257–282) -/
def boundArgs {V : Type} (truthy : V → Bool) (obj : V) (args : List V) : List V := if truthy obj then obj :: args else args

end

end ZhuSuan.MetaArgs
