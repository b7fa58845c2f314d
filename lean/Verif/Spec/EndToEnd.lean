import Mathlib.MeasureTheory.Measure.WithDensity
import Verif.Spec.Program
import Verif.Model.VObjective

/-!
# What a variational objective built from two model-building functions should be

`Q` is the variational program, `P` the model program.
-/

set_option autoImplicit false

namespace ZhuSuan.VObj
open ZhuSuan.BN
open scoped ENNReal
open MeasureTheory

variable {X : Type}

/-- The user's program: build the variational net from `Q`, construct the objective `v` from it and the
observations, and ask the model net that the objective builds from `P` for its log joint `l`.  `q'` is the
variational net afterwards, and `dr` the draws of the model net. -/
def Ran (Q P : List (Decl X)) (mq m : Option (LogJoint ((ℕ → X) → EReal)))
    (observed : Dict Name (Tensor X)) (dr : ℕ → (ℕ → X) → X)
    (v : VObj X ((ℕ → X) → EReal)) (q' : State X (Dist X X) ((ℕ → X) → EReal))
    (l : (ℕ → X) → EReal) : Prop :=
  ∃ sq s s',
    build (denv constEv drawOf) (State.init none mq []) Q = (.ok (), sq) ∧
    construct (denv constEv drawOf) (some (.net sq)) none observed = .ok (v, some q') ∧
    getBn (observe (denv (fun t w => eval constEv drawOf w t) dr) m P) v (some q') none =
      (.ok s, some s) ∧
    logJoint (denv (fun t w => eval constEv drawOf w t) dr) s = (.ok l, s')

/-- The value at which the model's statement `i` is evaluated: what the user observes for its name, else the
sample of the variational node of that name, else the model's own draw. -/
def modelVals (observed : Dict Name (Tensor X)) (Q P : List (Decl X)) (dr : ℕ → (ℕ → X) → X)
    (w : ℕ → X) (i : ℕ) : X :=
  match P[i]? with
  | none => dr i w
  | some d =>
    match observed.get? d.name with
    | some t => eval constEv drawOf w t
    | none =>
      match Q.findIdx? (fun e => e.name = d.name) with
      | some j => w j
      | none => dr i w

/-- Fixed observed values as tensors. -/
def consts (obs : Dict Name X) : Dict Name (Tensor X) := obs.map (fun i => (i.1, .ext i.2))

/-- The variational program covers the model's latent variables: its names are the names of the model that are
not observed. -/
def Covers (Q P : List (Decl X)) (obs : Dict Name X) : Prop :=
  ∀ n, n ∈ Q.map Decl.name ↔ n ∈ P.map Decl.name ∧ obs.get? n = none

section
variable [MeasurableSpace X]

/-- The measure with respect to which statement `i`'s density is taken; `μ` gives one for each name. -/
noncomputable def baseOf (μ : Name → Measure X) (prog : List (Decl X)) (i : ℕ) : Measure X :=
  match prog[i]? with
  | some d => μ d.name
  | none => 0

/-- The observation of statement `i`'s node. -/
def obsAt (P : List (Decl X)) (obs : Dict Name X) (i : ℕ) : Option X :=
  (P[i]?).bind (fun d => obs.get? d.name)

/-- The evidence `p(obs)`: the joint density of the model integrated over its latent variables, the observed
ones being at their observed values (`x0` fills the places that are integrated over). -/
noncomputable def evidence (μ : Name → Measure X) (P : List (Decl X)) (obs : Dict Name X) (x0 : X) : ℝ≥0∞ :=
  (∫⋯∫⁻_((Finset.range P.length).filter (fun i => obsAt P obs i = none)), jointDens P ∂(baseOf μ P))
    (fun i => (obsAt P obs i).getD x0)

/-- The distribution of the variational samples: the chain-rule density of `Q` (`w0` fills the places that no
sample uses). -/
noncomputable def latentLaw (μ : Name → Measure X) (Q : List (Decl X)) (w0 : ℕ → X) : Measure (ℕ → X) :=
  ((Measure.pi (fun i : Finset.range Q.length => baseOf μ Q i)).map
    (Function.updateFinset w0 (Finset.range Q.length))).withDensity (jointDens Q)

end

end ZhuSuan.VObj
