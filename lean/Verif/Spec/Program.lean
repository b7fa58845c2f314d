import Mathlib.MeasureTheory.Integral.Marginal
import Verif.Spec.BayesNet
import Verif.Model.Program

/-!
# What the distribution of a net should be
-/

set_option autoImplicit false

namespace ZhuSuan.BN
open scoped ENNReal
open MeasureTheory

variable {V X : Type}

/-- The joint density of a model-building function by the chain rule: the product over its statements of the
density of the node given the values of its parents. -/
noncomputable def jointDens (prog : List (Decl X)) (x : ℕ → X) : ℝ≥0∞ :=
  ∏ i : Fin prog.length, (prog.get i).dens ((prog.get i).parents.map x) (x i)

/-- The tensors of one program run on its own: external values are constants and draw number `i` has the value
`w i`. -/
abbrev constEv (x : X) (_ : ℕ → X) : X := x

@[inherit_doc constEv]
abbrev drawOf (i : ℕ) (w : ℕ → X) : X := w i

/-- Ancestral sampling: the expected value of `f` when the objects in the list draw their values one after the
other, each from its distribution with the parameters computed from the values drawn so far.  Densities are
with respect to `μ i`. -/
noncomputable def sampleE [MeasurableSpace X] (μ : ℕ → Measure X) (dist : ℕ → Dist X X) :
    List ℕ → ((ℕ → X) → ℝ≥0∞) → (ℕ → X) → ℝ≥0∞
  | [], f, w => f w
  | i :: rest, f, w =>
    ∫⁻ x, (dist i).dens ((dist i).params.map (eval constEv drawOf w)) x *
      sampleE μ dist rest f (Function.update w i x) ∂(μ i)

/-- A history in which parameters are computed from tensors that exist (a draw used as a parameter has been
made), and none of the ways around `stochastic` is used: no deprecated constructor, no `log_joint` setter, no
stochastic node replaced by a deterministic one. -/
def Causal {L : Type} [AddCommMonoid L] (env : Env V (Dist V X) L) :
    State V (Dist V X) L → List (Op V (Dist V X) L) → Prop
  | _, [] => True
  | s, op :: ops =>
    (match op with
      | .stochastic _ d => ∀ j k, Tensor.draw j k ∈ d.params → j ∈ s.draws
      | .deterministic n _ => ∀ id, s.nodes.get? n ≠ some (.stoch id)
      | .legacy _ _ _ => False
      | .setLogJoint _ => False
      | _ => True) ∧ Causal env (step env s op).2 ops

end ZhuSuan.BN

namespace ZhuSuan.BN
open scoped ENNReal

variable {V X L : Type}

/-- The distribution of object `id` (arbitrary if there is no such object). -/
def nodeDist (s : State V (Dist V X) L) (id : ℕ) : Dist V X :=
  match s.heap[id]? with
  | some o => o.dist
  | none => ⟨[], fun _ _ => 0⟩

/-- The current value of object `id` (arbitrary if there is no such object or it has no value yet). -/
def nodeValue (s : State V (Dist V X) L) (id : ℕ) : Tensor V :=
  match s.heap[id]? with
  | some o => o.value.getD (.draw id 0)
  | none => .draw id 0

/-- Object `id` exists and is observed. -/
def isObs (s : State V (Dist V X) L) (id : ℕ) : Bool :=
  match s.heap[id]? with
  | some o => o.observation.isSome
  | none => false

end ZhuSuan.BN

namespace ZhuSuan.BN

variable {V X : Type}

/-- A model-building function that makes sense: different names, parameters computed from earlier nodes. -/
def WellFormed (prog : List (Decl X)) : Prop :=
  (prog.map Decl.name).Nodup ∧ ∀ (i : ℕ) (d : Decl X), prog[i]? = some d → ∀ p ∈ d.parents, p < i

/-- The observation passed for node `n` (`None` and a missing key both mean "not observed"). -/
def obsOf (lo : Option (Dict Name (Option V))) (n : Name) : Option V :=
  (lo.bind (fun d => d.get? n)).join

/-- The value of statement `i`'s node in world `w`: its observation if one was passed for its name, else its
draw. -/
def nodeVal {W : Type} (ev : V → W → X) (dr : ℕ → W → X) (lo : Option (Dict Name (Option V)))
    (prog : List (Decl X)) (w : W) (i : ℕ) : X :=
  match (prog[i]?).bind (fun d => obsOf lo d.name) with
  | some v => ev v w
  | none => dr i w

end ZhuSuan.BN
