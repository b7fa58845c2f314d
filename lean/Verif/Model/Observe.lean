import Verif.Model.Dict

/-!
# Model of `zhusuan/framework/meta_bn.py` (`Local`, `MetaBayesianNet.observe`) and of how a
`BayesianNet` captures its `Local` context (`bn.py` 320–346)

`Local` objects are mutable heap cells; the class-level stack holds references to them; a net holds a
reference to the cell that was on top when it was created and reads the cell again whenever a
stochastic node is added.

Simplifications: the body of a model function is written in place of the call
(`observe m obs body`), so a terminating recursive program appears unrolled; variable scopes and
templates do not affect observations and are left out; the stack is the one of class `Local` alone
(by C04 the blocks of other context classes leave it as it is).
-/

set_option autoImplicit false

namespace ZhuSuan.Observe

/-- Node names: Python strings (bn.py 348). -/
abbrev Name := String

/-- A `Local` object (meta_bn.py 21–26); unset attributes read as `None`. -/
structure Cell (M V : Type) where
  observations : Option (Dict Name V)
  metaBn : Option M

/-- `cells`: all `Local` objects ever made.  `stack`: `Local._contexts`, top first.  `nets`: for each
`BayesianNet` ever made its `_local_cxt` and `_meta_bn`.  (framework/meta_bn.py 21–26, framework/utils.py 35–39,
framework/bn.py 320–330) -/
structure State (M V : Type) where
  cells : List (Cell M V)
  stack : List ℕ
  nets : List (Option ℕ × Option M)

/-- Client programs.  `newNet` is `zs.BayesianNet()`, `lookup i n` is what `nets[i].stochastic(n, ...)`
does to find an observation, `observe m obs body` is `m.observe(**obs)` for a model function with the
given body.  (client code of framework/meta_bn.py 87–103) -/
inductive Prog (M V : Type) where
  | skip
  | newNet
  | lookup (net : ℕ) (n : Name)
  | raise
  | seq (p q : Prog M V)
  | tryExcept (p h : Prog M V)
  | observe (m : M) (obs : Dict Name V) (body : Prog M V)

/-- Visible events: a net was made and belongs to this model; a node got this observation.  (framework/bn.py
320–330, 342–346) -/
inductive Event (M V : Type) where
  | created (m : Option M)
  | observation (v : Option V)

/-- How a program ends (client code of framework/meta_bn.py 87–103). -/
inductive Outcome where
  | ok
  | raised
  deriving DecidableEq

/-- The outcome of a program and its visible events in order (client code of framework/meta_bn.py 87–103). -/
structure Result (M V : Type) where
  outcome : Outcome
  trace : List (Event M V)

variable {M V : Type}

/-- `_BayesianNet.__init__` (bn.py 320–330). -/
def newNet (s : State M V) : State M V × Option M :=
  let cxt := s.stack.head?
  let m := match cxt with
    | some i => (s.cells[i]?).bind Cell.metaBn
    | none => none
  ({ s with nets := s.nets ++ [(cxt, m)] }, m)

/-- `_get_observation` (bn.py 342–346).  Outer `none`: an exception (`observations` is `None`, or there
is no such net). -/
def getObservation (s : State M V) (net : ℕ) (n : Name) : Option (Option V) :=
  match s.nets[net]? with
  | none => none
  | some (none, _) => some none
  | some (some i, _) =>
    match (s.cells[i]?).bind Cell.observations with
    | none => none
    | some obs => some (obs.get? n)

/-- `with Local() as local_cxt:` and the two assignments (meta_bn.py 88–90). -/
def enterLocal (s : State M V) (m : M) (obs : Dict Name V) : State M V :=
  let i := s.cells.length
  let s : State M V := { s with cells := s.cells ++ [⟨none, none⟩] }
  let s : State M V := { s with stack := i :: s.stack }
  let s : State M V := { s with cells := s.cells.modify i (fun c => { c with observations := some obs }) }
  { s with cells := s.cells.modify i (fun c => { c with metaBn := some m }) }

/-- `__exit__` (framework/utils.py 32–33): `pop()`, an exception on the empty stack. -/
def exitLocal (s : State M V) : Option (State M V) :=
  match s.stack with
  | [] => none
  | _ :: rest => some { s with stack := rest }

/-- Execution.  `argsOk m` is false for a `MetaBayesianNet` built directly without `args`/`kwargs`:
`func(*self._args, **self._kwargs)` with `None` is a `TypeError` (meta_bn.py 63–64, 91). -/
def exec (argsOk : M → Bool) : Prog M V → State M V → Result M V × State M V
  | .skip, s => (⟨.ok, []⟩, s)
  | .newNet, s =>
    let (s, m) := newNet s
    (⟨.ok, [.created m]⟩, s)
  | .lookup net n, s =>
    match getObservation s net n with
    | none => (⟨.raised, []⟩, s)
    | some v => (⟨.ok, [.observation v]⟩, s)
  | .raise, s => (⟨.raised, []⟩, s)
  | .seq p q, s =>
    match exec argsOk p s with
    | (⟨.raised, t⟩, s) => (⟨.raised, t⟩, s)
    | (⟨.ok, t⟩, s) =>
      let (r, s) := exec argsOk q s
      (⟨r.outcome, t ++ r.trace⟩, s)
  | .tryExcept p h, s =>
    match exec argsOk p s with
    | (⟨.ok, t⟩, s) => (⟨.ok, t⟩, s)
    | (⟨.raised, t⟩, s) =>
      let (r, s) := exec argsOk h s
      (⟨r.outcome, t ++ r.trace⟩, s)
  | .observe m obs body, s =>
    let s := enterLocal s m obs
    let (r, s) := if argsOk m then exec argsOk body s else (⟨.raised, []⟩, s)
    match exitLocal s with
    | some s => (r, s)
    | none => (⟨.raised, r.trace⟩, s)

/-- A fresh process.  (framework/utils.py 37–38) -/
def State.empty : State M V := ⟨[], [], []⟩

end ZhuSuan.Observe
