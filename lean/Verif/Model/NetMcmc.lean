import Verif.Model.Program
import Verif.Model.HmcApi

/-!
# The log joint of a net as a function of the values of its latent variables

What `zhusuan/hmc.py`, `zhusuan/sgmcmc.py` and `zhusuan/evaluation.py` evaluate when they are given a
`MetaBayesianNet`: `meta_bn.observe(**obs).log_joint()`.

* `C` indexes the chains.  A tensor has one value of `X` in each chain: the worlds of `Model/Program.lean` are
  the chains, an external tensor is a function `C → X`, and the draw of object `obj` has the value `dr obj c`
  in chain `c`.
* There are `k` latent variables; variable `i` has in each chain an array of numbers with positions `κ i`, and
  `mk i` makes the node's value of them.
-/

set_option autoImplicit false

namespace ZhuSuan.BN

variable {C X : Type}

/-- The value in chain `c` of a tensor with chain axes (hmc.py 208–216). -/
abbrev chainEv (t : C → X) (c : C) : X := t c

/-- `meta_bn.observe(**obs).log_joint()` (hmc.py 416, sgmcmc.py 79, evaluation.py 91 and 96). -/
noncomputable def netLogJoint (dr : ℕ → C → X) (m : Option (LogJoint (C → EReal))) (prog : List (Decl X))
    (obs : Dict Name (C → X)) : Except Err (C → EReal) :=
  match observe (denv chainEv dr) m prog (obs.map fun e => (e.1, some e.2)) with
  | .error e => .error e
  | .ok s => (logJoint (denv chainEv dr) s).1

/-- `get_log_posterior` (hmc.py 426–428, sgmcmc.py 92–94) for a `MetaBayesianNet`. -/
noncomputable def getLogPosterior (dr : ℕ → C → X) (m : Option (LogJoint (C → EReal))) (prog : List (Decl X))
    (names : List Name) (observed : Dict Name (C → X)) (values : List (C → X)) : Except Err (C → EReal) :=
  netLogJoint dr m prog (Hmc.jointObs names values observed)

variable {k : ℕ} {κ : Fin k → Type}

/-- The list of the latent tensors (hmc.py 419–424), from the numbers in them: `q c ⟨i, j⟩` is the number at
position `j` of latent variable `i` in chain `c`. -/
def latentTensors (mk : (i : Fin k) → (κ i → ℝ) → X) (q : C → (Σ i, κ i) → ℝ) : List (C → X) :=
  List.ofFn fun i => fun c => mk i fun j => q c ⟨i, j⟩

end ZhuSuan.BN
