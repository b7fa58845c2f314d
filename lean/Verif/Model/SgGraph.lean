import Verif.Model.Dataflow
import Mathlib.Data.Set.Insert

/-!
# The graphs that the SGMCMC samplers build

The operations of one iteration (zhusuan/sgmcmc.py 102–118 and the `_update` of the samplers) with the variables they read and assign.
An operation stands for several where these read no further variable.  The gradient for a latent variable is one operation, which reads
all latent variables or uses the tensors given to `grad_func`.
-/

set_option autoImplicit false

namespace ZhuSuan.SgGraph
open Dataflow

/-- The samplers; `second` is `second_order`, and `resample` says that `n_iter_resample_v` is not 0.  (sgmcmc.py 170–523) -/
inductive Kind where
  | sgld
  | psgld
  | sghmc (second resample : Bool)
  | sgnht (second resample : Bool)

/-- Whether the sampler has momenta.  (sgmcmc.py 320–324, 448–452) -/
def Kind.mom : Kind → Bool
  | .sghmc _ _ | .sgnht _ _ => true
  | _ => false

/-- Whether it uses the second-order integrator.  (sgmcmc.py 343, 482) -/
def Kind.second : Kind → Bool
  | .sghmc s _ | .sgnht s _ => s
  | _ => false

/-- Whether it resamples momenta.  (sgmcmc.py 330–337, 470–478) -/
def Kind.resample : Kind → Bool
  | .sghmc _ r | .sgnht _ r => r
  | _ => false

/-- Whether it has frictions as variables.  (sgmcmc.py 453–458) -/
def Kind.friction : Kind → Bool
  | .sgnht _ _ => true
  | _ => false

/-- The variables: latent variables, momenta, frictions, averages of squared gradients, and the counter.  (sgmcmc.py 73, 90, 226,
320–324, 448–458) -/
inductive Var (V : Type) where
  | q (v : V)
  | mom (v : V)
  | alpha (v : V)
  | aux (v : V)
  | t

/-- The operations.  (sgmcmc.py)
* `oldV` 330–337 or 470–478; `q1` 351 or 492; `alpha1` 493–495; `grad` 96–98 as used in 193, 248, 347, 356, 486, 501
* `newAux` 230; `newV` 344–347, 352–356, 483–486, 497–501; `newQ` 348, 357, 487, 502 and 196–197, 253–254; `newAlpha` 489–490, 504–505
* `updateQ`, `updateV`, `updateAlpha` 363–366, 511–516 and 198, 255; `incT` 107; `sampleOp` 108 -/
inductive Op (V : Type) where
  | oldV (v : V) | q1 (v : V) | alpha1 (v : V) | grad (v : V)
  | newAux (v : V) | newV (v : V) | newQ (v : V) | newAlpha (v : V)
  | updateQ (v : V) | updateV (v : V) | updateAlpha (v : V)
  | incT | sampleOp

variable {V : Type}

/-- The new values on which all assignments of SGHMC and SGNHT have control dependencies.  (sgmcmc.py 363, 511) -/
def barrier (k : Kind) : Set (Op V) := {m | k.mom ∧ ((∃ v, m = .newV v ∨ m = .newQ v) ∨ (k.friction ∧ ∃ v, m = .newAlpha v))}

/-- Inputs and control inputs.  An operation that a sampler does not have has none.  (sgmcmc.py, lines as in `Op`) -/
def deps (k : Kind) : Op V → Set (Op V)
  | .oldV _ => ∅
  | .q1 v => {m | k.second ∧ m = .oldV v}
  | .alpha1 v => {m | k.second ∧ k.friction ∧ m = .oldV v}
  | .grad _ => {m | k.second ∧ ∃ v, m = .q1 v}
  | .newAux v => {.grad v}
  | .newV v => {m | k.mom ∧ (m = .oldV v ∨ m = .grad v ∨ (k.second ∧ k.friction ∧ m = .alpha1 v))}
  | .newQ v => {m | match k with
      | .sgld => m = .grad v
      | .psgld => m = .grad v ∨ m = .newAux v
      | _ => m = .newV v ∨ (k.second ∧ m = .q1 v)}
  | .newAlpha v => {m | k.friction ∧ (m = .newV v ∨ (k.second ∧ m = .alpha1 v))}
  | .updateQ v => {m | m = .newQ v ∨ m ∈ barrier k}
  | .updateV v => {m | k.mom ∧ (m = .newV v ∨ m ∈ barrier k)}
  | .updateAlpha v => {m | k.friction ∧ (m = .newAlpha v ∨ m ∈ barrier k)}
  | .incT => ∅
  | .sampleOp => {m | m = .incT ∨ ∃ v, m = .updateQ v ∨ (k.mom ∧ m = .updateV v) ∨ (k.friction ∧ m = .updateAlpha v)}

/-- Variables read.  (sgmcmc.py, lines as in `Op`) -/
def reads (k : Kind) : Op V → Set (Var V)
  | .oldV v => {x | k.mom ∧ (x = .mom v ∨ (k.resample ∧ x = .t))}
  | .q1 v => {x | k.second ∧ x = .q v}
  | .alpha1 v => {x | k.second ∧ k.friction ∧ x = .alpha v}
  | .grad _ => {x | k.second = false ∧ ∃ v, x = .q v}
  | .newAux v => {x | k = .psgld ∧ x = .aux v}
  | .newV v => {x | k.friction ∧ k.second = false ∧ x = .alpha v}
  | .newQ v => {x | k.second = false ∧ x = .q v}
  | .newAlpha v => {x | k.friction ∧ k.second = false ∧ x = .alpha v}
  | .incT => {.t}
  | _ => ∅

open scoped Classical in
/-- The variable assigned.  (sgmcmc.py, lines as in `Op`) -/
noncomputable def writes (k : Kind) : Op V → Option (Var V)
  | .newAux v => if k = .psgld then some (.aux v) else none
  | .updateQ v => some (.q v)
  | .updateV v => if k.mom then some (.mom v) else none
  | .updateAlpha v => if k.friction then some (.alpha v) else none
  | .incT => some .t
  | _ => none

/-- The graph of an iteration.  (sgmcmc.py 102–118) -/
noncomputable def graph (k : Kind) : Graph (Op V) (Var V) := ⟨deps k, reads k, writes k⟩

end ZhuSuan.SgGraph
