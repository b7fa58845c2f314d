import Verif.Model.NetMcmc
import Verif.Model.Ais

/-!
# Annealed importance sampling between two nets

`zhusuan/evaluation.py` 79–110 when `meta_bn` and `proposal_meta_bn` are `MetaBayesianNet`s.  Chains and values
are as in `Model/NetMcmc.lean`.
-/

set_option autoImplicit false

namespace ZhuSuan.BN

variable {C X : Type}

/-- A node used as a tensor: a `StochasticTensor` is converted, a `tf.Tensor` is itself (bn.py 205–213,
evaluation.py 109–110). -/
def refTensor {V D L : Type} (env : Env V D L) (s : State V D L) : Ref V → Except Err (Tensor V) × State V D L
  | .stoch id => objTensor env s id
  | .det t => (.ok t, s)

/-- The values of `prior_samples` that `init_latent` assigns to the variables: the nodes of
`proposal_meta_bn.observe()` with the names of the latent variables, in the order of `latent`
(evaluation.py 93–95 and 109–110). -/
noncomputable def priorSamples (dr : ℕ → C → X) (mq : Option (LogJoint (C → EReal))) (Q : List (Decl X))
    (names : List Name) : Except Err (List (C → X)) :=
  match observe (denv chainEv dr) mq Q [] with
  | .error e => .error e
  | .ok s =>
    match get s (.many (names.map PyName.str)) with
    | .error e => .error e
    | .ok (.nodes rs) =>
      match comprehension (refTensor (denv chainEv dr)) s rs with
      | (.error e, _) => .error e
      | (.ok ts, _) => .ok (ts.map fun t c => eval chainEv dr c t)
    | .ok _ => .error .typeError

/-- `merge_dicts(observed, latent)` (evaluation.py 106).  HMC merges the other way round (`Hmc.jointObs`). -/
def valObs (names : List Name) (values : List (C → X)) (observed : Dict Name (C → X)) : Dict Name (C → X) :=
  Dict.mergeDicts [observed, Dict.update [] (names.zip values)]

variable {k : ℕ} {κ : Fin k → Type}

/-- The numbers in the tensors assigned to the latent variables (evaluation.py 109–110); `un i` reads the
numbers of a value of latent variable `i`. -/
def numbersOf (un : (i : Fin k) → X → κ i → ℝ) (ts : List (C → X)) (c : C) (p : Σ i, κ i) : ℝ :=
  match ts[(p.1 : ℕ)]? with
  | some t => un p.1 (t c) p.2
  | none => 0

/-- `sess.run(self.init_latent)` (evaluation.py 109–110, 131 and 140): draws `w` of the proposal net are
assigned to the variables.  A net that cannot be built or has no node of some name is an error when the `AIS`
object is made. -/
noncomputable def initLatent (un : (i : Fin k) → X → κ i → ℝ) (mq : Option (LogJoint (C → EReal)))
    (Q : List (Decl X)) (names : List Name) (w : C → ℕ → X) (s : Hmc.State ℝ C (Σ i, κ i)) :
    Hmc.State ℝ C (Σ i, κ i) :=
  match priorSamples (fun obj c => w c obj) mq Q names with
  | .ok ts => { s with q := numbersOf un ts }
  | .error _ => s

end ZhuSuan.BN
