import Mathlib.Algebra.BigOperators.Group.List.Basic
import Verif.Model.BayesNet

/-!
# `VariationalObjective` (`zhusuan/variational/base.py` 49–183)

The variational net is a `BN.State`.  The model is either a log-joint function or a model-building
function; the tensors of the variational program (`Tensor V`: given tensors or draws) are the values
observed in the model net.  Warnings are not modelled.
-/

set_option autoImplicit false

namespace ZhuSuan.VObj
open ZhuSuan.BN

variable {V D L : Type}

/-- What the caller passes as `variational`.  (variational/base.py 49–89) -/
inductive VArg (V D L : Type) where
  | net (q : State V D L)
  | notNet

/-- A variational input: a `StochasticTensor` object of the variational net, or a given tensor.
(variational/base.py 70–87) -/
inductive VIn (V : Type) where
  | node (id : ℕ)
  | tensor (t : Tensor V)

/-- The attributes `_v_inputs`, `_v_log_probs`, `_observed` (base.py 87–89). -/
structure VObj (V L : Type) where
  vInputs : Dict Name (VIn V)
  vLogProbs : Dict Name L
  observed : Dict Name (Tensor V)

/-- The list comprehension 71–73: the items of `variational.nodes` that are `StochasticTensor`s and not
`is_observed()` (an object whose constructor failed has no `_observation`: `AttributeError`). -/
def unobserved (q : State V D L) : List (Name × Ref V) → Except Err (List (Name × ℕ))
  | [] => .ok []
  | (_, .det _) :: rest => unobserved q rest
  | (n, .stoch id) :: rest =>
    match q.heap[id]? with
    | none => .error .attributeError
    | some o =>
      if o.ready = false then .error .attributeError
      else
        match unobserved q rest with
        | .error e => .error e
        | .ok l => if o.observation.isSome then .ok l else .ok ((n, id) :: l)

/-- `__init__` (base.py 49–89).  Returns the object and the (possibly sampled) variational net. -/
def construct (env : Env V D L) (variational : Option (VArg V D L))
    (latent : Option (Dict Name (Tensor V × L))) (observed : Dict Name (Tensor V)) :
    Except Err (VObj V L × Option (State V D L)) :=
  match variational, latent with
  | none, none => .error .valueError
  | some _, some _ => .error .valueError
  | some .notNet, none => .error .typeError
  | some (.net q), none =>
    match unobserved q q.nodes with
    | .error e => .error e
    | .ok ins =>
      match comprehension (fun s (i : Name × ℕ) => objCondLogP env s i.2) q ins with
      | (.error e, _) => .error e
      | (.ok ls, q) =>
        .ok (⟨ins.map (fun i => (i.1, .node i.2)), (ins.map Prod.fst).zip ls, observed⟩, some q)
  | none, some l =>
    -- `v_names, v_inputs_and_log_probs = zip(*items)` cannot unpack an empty sequence (base.py 81)
    if l = [] then .error .valueError
    else .ok (⟨l.map (fun i => (i.1, .tensor i.2.1)), l.map (fun i => (i.1, i.2.2)), observed⟩, none)

/-- The tensor a variational input stands for when it is converted (`StochasticTensor.tensor`,
bn.py 163–175, on an object that has its value). -/
def VIn.value (q : Option (State V D L)) : VIn V → Option (Tensor V)
  | .tensor t => some t
  | .node id =>
    match q with
    | none => none
    | some q =>
      match q.heap[id]? with
      | none => none
      | some o => if o.ready then (match o.observation with
          | some v => some (.ext v)
          | none => o.samples) else none

/-- `merge_dicts(self._v_inputs, self._observed)` (base.py 134, 173), inputs read as tensors. -/
def VObj.given (v : VObj V L) (q : Option (State V D L)) : Dict Name (Option (Tensor V)) :=
  Dict.mergeDicts [v.vInputs.map (fun i => (i.1, i.2.value q)),
    v.observed.map (fun i => (i.1, some i.2))]

/-- Python objects met when iterating over `bn.nodes`.  (variational/base.py 91–97) -/
inductive PyObj (V : Type) where
  | str (n : Name)
  | ref (r : Ref V)

/-- `isinstance(node, StochasticTensor)`.  (variational/base.py 93) -/
def PyObj.isStochastic {V : Type} : PyObj V → Bool
  | .str _ => false
  | .ref (.stoch _) => true
  | .ref (.det _) => false

/-- `_validate_variational_inputs` (base.py 91–97): iterating over a dictionary yields its keys. -/
def validate {W D' : Type} (bn : State W D' L) : Except Err Unit :=
  if ((bn.nodes.map (fun i => (PyObj.str i.1 : PyObj W))).any (fun x => x.isStochastic)) then
    .error .valueError
  else .ok ()

/-- The `bn` property (base.py 118–138); `cached` is `_bn`.  `observe` runs the model function under the
given observations. -/
def getBn {W D' : Type} (observe : Dict Name (Option (Tensor V)) → Except Err (State W D' L))
    (v : VObj V L) (q : Option (State V D L)) (cached : Option (State W D' L)) :
    Except Err (State W D' L) × Option (State W D' L) :=
  match cached with
  | some b => (.ok b, cached)
  | none =>
    match observe (v.given q) with
    | .error e => (.error e, none)
    | .ok b =>
      -- `_bn` is assigned before the check
      match validate b with
      | .error e => (.error e, some b)
      | .ok () => (.ok b, some b)

/-- `_entropy_term` (base.py 177–183). -/
def entropyTerm [AddCommMonoid L] [Neg L] (v : VObj V L) : Option L :=
  if 0 < v.vLogProbs.length then some (-((v.vLogProbs.map Prod.snd).sum)) else none

/-- `EvidenceLowerBoundObjective._objective` with `axis=None` (exclusive_kl.py 131–137). -/
def elbo [AddCommMonoid L] [Neg L] (logJoint : L) (v : VObj V L) : L :=
  match entropyTerm v with
  | some h => logJoint + h
  | none => logJoint

end ZhuSuan.VObj
