import Mathlib.Data.List.Basic
import Mathlib.Logic.Function.Basic

/-!
# Model of `zhusuan/framework/utils.py`: `Context` (lines 20–46)

Python classes are elements of a type `Cls` with a method-resolution order `mro` (restricted to
the subclasses of `Context`, which are the only classes that can carry `_contexts`).  The class
attribute `_contexts` is `own : Cls → Option (List Ctx)`; the list has the *top of the stack
first* (Python appends/pops at the right end).
-/

namespace ZhuSuan.Context

/-- The context subclasses with their method resolution orders.  `linear` is single inheritance
among them: what follows `d` in the resolution order of `c` is the resolution order of `d`.  (subclasses of
framework/utils.py 20–46) -/
structure Hierarchy (Cls : Type) where
  mro : Cls → List Cls
  self_mem : ∀ c, ∃ tl, mro c = c :: tl
  linear : ∀ c pre d post, mro c = pre ++ d :: post → mro d = d :: post
  nodup : ∀ c, (mro c).Nodup

variable {Cls Ctx : Type} [DecidableEq Cls]

/-- Class attributes `_contexts` actually set on each class (not inherited).  (framework/utils.py 37–38) -/
structure State (Cls Ctx : Type) where
  own : Cls → Option (List Ctx)

/-- Attribute lookup of `cls._contexts` (used by `hasattr`, line 37, and line 39): the first class
in the resolution order that has it. -/
def owner? (H : Hierarchy Cls) (s : State Cls Ctx) (c : Cls) : Option Cls :=
  (H.mro c).find? (fun d => (s.own d).isSome)

/-- `get_contexts` (lines 35–39): returns the class whose list object is returned, creating an
empty list on `cls` itself when no class in the resolution order has one. -/
def getContexts (H : Hierarchy Cls) (s : State Cls Ctx) (c : Cls) : Cls × State Cls Ctx :=
  match owner? H s c with
  | some d => (d, s)
  | none => (c, { own := Function.update s.own c (some []) })

/-- `__enter__` (lines 28–30): `type(self).get_contexts().append(self)`. -/
def enter (H : Hierarchy Cls) (s : State Cls Ctx) (c : Cls) (x : Ctx) : State Cls Ctx :=
  let (d, s) := getContexts H s c
  { own := Function.update s.own d (some (x :: (s.own d).getD [])) }

/-- `__exit__` (lines 32–33): `type(self).get_contexts().pop()`; `none` is the `IndexError` of
popping an empty list. -/
def exit (H : Hierarchy Cls) (s : State Cls Ctx) (c : Cls) : Option (State Cls Ctx) :=
  let (d, s) := getContexts H s c
  match (s.own d).getD [] with
  | [] => none
  | _ :: rest => some { own := Function.update s.own d (some rest) }

/-- `get_context` (lines 41–46): the last element, or `none` for `RuntimeError`. -/
def getContext (H : Hierarchy Cls) (s : State Cls Ctx) (c : Cls) : Option Ctx × State Cls Ctx :=
  let (d, s) := getContexts H s c
  (((s.own d).getD []).head?, s)

/-- Programs: `get c` calls `c.get_context()` (raising `RuntimeError` if there is none),
`withBlock c x body` is `with x: body` for an instance `x` of class `c`, `raise` any exception,
`tryExcept p h` catches every exception of `p` and runs `h`.  (client code of framework/utils.py 20–46) -/
inductive Prog (Cls Ctx : Type) where
  | skip
  | get (c : Cls)
  | raise
  | seq (p q : Prog Cls Ctx)
  | tryExcept (p h : Prog Cls Ctx)
  | withBlock (c : Cls) (x : Ctx) (body : Prog Cls Ctx)

/-- How a program ends (client code of framework/utils.py 20–46). -/
inductive Outcome where
  | ok
  | raised
  deriving DecidableEq

/-- What a program did: how it ended, and the answers of its `get_context` calls in order.  (client code of
framework/utils.py 20–46) -/
structure Result (Ctx : Type) where
  outcome : Outcome
  trace : List (Option Ctx)

/-- Python's execution.  A `with` block calls `__exit__` whether or not the body raised; the
exception is re-raised since `__exit__` returns `None`.  (framework/utils.py 28–33, 41–46) -/
def exec (H : Hierarchy Cls) : Prog Cls Ctx → State Cls Ctx → Result Ctx × State Cls Ctx
  | .skip, s => (⟨.ok, []⟩, s)
  | .get c, s =>
      match getContext H s c with
      | (some x, s) => (⟨.ok, [some x]⟩, s)
      | (none, s) => (⟨.raised, [none]⟩, s)
  | .raise, s => (⟨.raised, []⟩, s)
  | .seq p q, s =>
      match exec H p s with
      | (⟨.raised, t⟩, s) => (⟨.raised, t⟩, s)
      | (⟨.ok, t⟩, s) =>
        let (r, s) := exec H q s
        (⟨r.outcome, t ++ r.trace⟩, s)
  | .tryExcept p h, s =>
      match exec H p s with
      | (⟨.ok, t⟩, s) => (⟨.ok, t⟩, s)
      | (⟨.raised, t⟩, s) =>
        let (r, s) := exec H h s
        (⟨r.outcome, t ++ r.trace⟩, s)
  | .withBlock c x body, s =>
      let (r, s) := exec H body (enter H s c x)
      match exit H s c with
      | some s => (r, s)
      | none => (⟨.raised, r.trace⟩, s)

end ZhuSuan.Context
