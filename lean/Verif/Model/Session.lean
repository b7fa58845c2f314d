import Verif.Model.Program

/-!
# Stochastic tensors in `session.run`

`zhusuan/framework/bn.py` registers conversions that let a `StochasticTensor` be fetched by `session.run` and be used as a key of `feed_dict`
(306–316).  The model below follows `BaseSession.run` of TensorFlow 1: keys of the feed dictionary are converted first, then the fetches; a fed
tensor has the fed value, and every other tensor is computed from its inputs, each random op once per run.

Simplifications: fetches are a flat list; placeholders are external tensors with some value of their own; deterministic nodes are part of the
parameters of later statements, as in `Model/Program.lean`.
-/
set_option autoImplicit false

namespace ZhuSuan.BN

variable {V X R L : Type}

/-- The values of all tensors in one run: of the external ones and of the draws. -/
abbrev World (V X : Type) := (V → X) × (ℕ → X)

/-- The value of an external tensor in a run. -/
abbrev wEv (v : V) (w : World V X) : X := w.1 v

/-- The value of the draw of an object in a run. -/
abbrev wDr (i : ℕ) (w : World V X) : X := w.2 i

/-- The net whose log probabilities are functions of the values of the tensors (bn.py 96–115, 163–204). -/
noncomputable abbrev senv : Env V (Dist V X) (World V X → EReal) :=
  denv wEv wDr

/-- The value of a tensor in a run (bn.py 163–175). -/
abbrev tensorVal (w : World V X) (t : Tensor V) : X :=
  eval wEv wDr w t

/-- What one can fetch and feed: a tensor or a `StochasticTensor` object (bn.py 306–316). -/
inductive Key (V : Type) where
  | tensor (t : Tensor V)
  | stoch (id : ℕ)

/-- The conversion of a fetch, `([t.tensor], lambda val: val[0])`, and of a key of the feed dictionary, `[(t.tensor, v)]` (bn.py 313–315). -/
def keyTensor (env : Env V (Dist V X) L) (s : State V (Dist V X) L) :
    Key V → Except Err (Tensor V) × State V (Dist V X) L
  | .tensor t => (.ok t, s)
  | .stoch id => objTensor env s id

/-- The value that a feed dictionary gives to an external tensor: later entries win. -/
def fedExt [DecidableEq V] (feeds : List (Tensor V × X)) (v : V) : Option X :=
  feeds.reverse.findSome? fun p =>
    match p.1 with
    | .ext u => if u = v then some p.2 else none
    | .draw _ _ => none

/-- The value that a feed dictionary gives to the draw of an object: later entries win. -/
def fedDraw (feeds : List (Tensor V × X)) (id : ℕ) : Option X :=
  feeds.reverse.findSome? fun p =>
    match p.1 with
    | .ext _ => none
    | .draw obj _ => if obj = id then some p.2 else none

section
variable [Inhabited X] (smp : ℕ → List X → R → X) (dist : ℕ → Dist V X) (ext : V → X) (fed : ℕ → Option X) (noise : ℕ → R)

/-- The draws of the first `n` objects in one run: the fed value, or the sampler of the distribution (`smp id`, distributions/base.py 208–240)
on the values of the parameters and the noise of the op.  Ops run in the order in which they were made, which is a topological order. -/
def drawVals : ℕ → ℕ → X
  | 0 => fun _ => default
  | n + 1 =>
    Function.update (drawVals n) n
      ((fed n).getD (smp n ((dist n).params.map (tensorVal (ext, drawVals n))) (noise n)))
end

/-- The distribution of object `id` (bn.py 150–153). -/
def distOf (s : State V (Dist V X) L) (id : ℕ) : Dist V X :=
  match s.heap[id]? with
  | some o => o.dist
  | none => ⟨[], fun _ _ => 0⟩

/-- The values of all tensors in a run with the converted feed dictionary `feeds`; `own` are the values of the external tensors that are not
fed. -/
def runWorld [DecidableEq V] [Inhabited X] (smp : ℕ → List X → R → X) (own : V → X) (s : State V (Dist V X) L)
    (feeds : List (Tensor V × X)) (noise : ℕ → R) : World V X :=
  let ext := fun v => (fedExt feeds v).getD (own v)
  (ext, drawVals smp (distOf s) ext (fedDraw feeds) noise s.heap.length)

/-- `session.run([log_joint] + fetches, feed_dict)` for the log joint `l` of the net: what it returns (bn.py 306–316, 467–478). -/
def sessionRun [DecidableEq V] [Inhabited X] (env : Env V (Dist V X) L) (smp : ℕ → List X → R → X) (own : V → X)
    (s : State V (Dist V X) L) (l : World V X → EReal) (fetches : List (Key V)) (feedDict : List (Key V × X)) (noise : ℕ → R) :
    Except Err (EReal × List X) × State V (Dist V X) L :=
  match comprehension (keyTensor env) s (feedDict.map Prod.fst) with
  | (.error e, s) => (.error e, s)
  | (.ok ks, s) =>
    match comprehension (keyTensor env) s fetches with
    | (.error e, s) => (.error e, s)
    | (.ok ts, s) =>
      let w := runWorld smp own s (ks.zip (feedDict.map Prod.snd)) noise
      (.ok (l w, ts.map (tensorVal w)), s)

end ZhuSuan.BN
