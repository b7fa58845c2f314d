import Mathlib.Analysis.SpecialFunctions.Log.ENNRealLog
import Verif.Model.BayesNet

/-!
# Model-building programs, and what the symbolic tensors of a net stand for

`Model/BayesNet.lean` treats distributions and log probabilities abstractly.  Here they are made concrete so
that one can speak of the joint distribution of a net (`framework/bn.py`; the programs are those of
`docs/tutorials/concepts.rst`).

* `W` is the space of run-time worlds (one per `session.run`: the values of all the random draws), `X` the
  space of values of nodes.  An external tensor `v` has in world `w` the value `ev v w` (constants and
  placeholders do not depend on `w`), and the draw of object `obj` the value `dr obj w`.  An object draws at
  most once (C08), so draws are indexed by objects.
* A distribution object is a density with parameters: `dens ps` is the density (or mass function) of the node
  when the parameter tensors have values `ps`.  Log probabilities are extended reals, so that the density
  zero has log probability minus infinity.

Simplification: observations have the right type and shape (the check is C11), and every distribution can be
sampled.
-/

set_option autoImplicit false

namespace ZhuSuan.BN
open scoped ENNReal

variable {V W X : Type}

/-- A distribution object: its parameter tensors and the density they give (distributions/base.py 66–104,
242–276). -/
structure Dist (V X : Type) where
  params : List (Tensor V)
  dens : List X → X → ℝ≥0∞

/-- The run-time value of a tensor (bn.py 163–175). -/
def eval (ev : V → W → X) (dr : ℕ → W → X) (w : W) : Tensor V → X
  | .ext v => ev v w
  | .draw obj _ => dr obj w

/-- The density of distribution `d` at tensor `t` in world `w` (distributions/base.py 258–276). -/
def Dist.at (ev : V → W → X) (dr : ℕ → W → X) (d : Dist V X) (t : Tensor V) (w : W) : ℝ≥0∞ :=
  d.dens (d.params.map (eval ev dr w)) (eval ev dr w t)

/-- Distributions as a net sees them (bn.py 96–115, 163–175, 194–204): `log_prob` is the logarithm of the
density. -/
noncomputable def denv (ev : V → W → X) (dr : ℕ → W → X) : Env V (Dist V X) (W → EReal) where
  checkObs := fun _ v => some v
  canSample := fun _ => true
  logProb := fun d t => some (fun w => (d.at ev dr t w).log)

/-- One statement `x_i = bn.<distribution>(name, parameters)` of a model-building function (bn.py 556–1189,
docs/tutorials/concepts.rst): `parents` are the numbers of the earlier statements whose nodes the parameters
are computed from, `dens` the density as a function of the parents' values. -/
structure Decl (X : Type) where
  name : Name
  parents : List ℕ
  dens : List X → X → ℝ≥0∞

/-- Running one statement: the parameters are computed from the parents' tensors (which may make the parents
draw, bn.py 163–175), then the node is added (bn.py 348–371). -/
def declare {L : Type} (env : Env V (Dist V X) L) (s : State V (Dist V X) L) (d : Decl X) :
    Except Err Unit × State V (Dist V X) L :=
  match comprehension (objTensor env) s d.parents with
  | (.error e, s) => (.error e, s)
  | (.ok ts, s) =>
    match stochastic env s d.name ⟨ts, d.dens⟩ with
    | (.error e, s) => (.error e, s)
    | (.ok _, s) => (.ok (), s)

/-- Running the statements of a model-building function in turn; an exception ends it (meta_bn.py 87–105). -/
def build {L : Type} (env : Env V (Dist V X) L) (s : State V (Dist V X) L) :
    List (Decl X) → Except Err Unit × State V (Dist V X) L
  | [] => (.ok (), s)
  | d :: ds =>
    match declare env s d with
    | (.error e, s) => (.error e, s)
    | (.ok (), s) => build env s ds

/-- `MetaBayesianNet.observe(**g)` (meta_bn.py 81–105): the net that the model-building function returns when it
is run under the observations `g`; `m` is the model's `log_joint`.  Variable scopes are left out. -/
def observe {L : Type} (env : Env V (Dist V X) L) (m : Option (LogJoint L)) (prog : List (Decl X))
    (g : Dict Name (Option V)) : Except Err (State V (Dist V X) L) :=
  match build env (State.init (some g) m []) prog with
  | (.error e, _) => .error e
  | (.ok (), s) => .ok s

end ZhuSuan.BN
