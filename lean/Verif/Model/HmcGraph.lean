import Verif.Model.Dataflow
import Mathlib.Data.Set.Insert

/-!
# The graph that `HMC.sample` builds

The operations of one iteration (zhusuan/hmc.py 382–522) with the variables they read and assign.  Several operations that read no
variable after the first of them are one operation here, and so is a `tf.while_loop` or a `tf.cond` without assignments, which reads
the variables it uses.  Of a `tf.cond` with assignments (`_adapt_mass` 287–289, `tune` 108–110) only the branch taken runs.
-/

set_option autoImplicit false

namespace ZhuSuan.HmcGraph
open Dataflow

/-- The variables; `V` are the latent variables.  (hmc.py 82–87, 118–123, 258–264, 424) -/
inductive Var (V : Type) where
  | q (v : V)
  | stepSize
  | t
  | tunerStep
  | hBar
  | logEpsBar
  | ewmvT
  | mean (v : V)
  | var (v : V)

/-- The operations.  (hmc.py 382–522)
* `newT` 418; `ewmvT` 132, `weight` 133, `incr` 135, `updateMean` 137–139, `newVar` 141–145, `updateVar` 147–148, `newMass` 151–159
* `mass` 298–302, `momentum` 458, `newStepSize` 463–472 with the search 307–345, `leapfrog` 475–476, 348–372
* `oldLogProb`, `oldHamiltonian`, `newLogProb`, `newHamiltonian`, `rate` 46–61, `ifAccept` 485–486, `newQ` 488–495, `updateQ` 497,
  `logProb` 498
* `step` 92, `hBar` 94–96, `logEps` 97, `logEpsBar` 98–102, `tuned` 103–110, `updateStepSize` 379
* `sampleOp` 519–520 -/
inductive Op (V : Type) where
  | newT | ewmvT | weight
  | incr (v : V) | updateMean (v : V) | newVar (v : V) | updateVar (v : V) | newMass (v : V)
  | mass | momentum | newStepSize | leapfrog
  | oldLogProb | oldHamiltonian | newLogProb | newHamiltonian | rate | ifAccept
  | newQ (v : V) | updateQ (v : V) | logProb
  | step | hBar | logEps | logEpsBar | tuned | updateStepSize
  | sampleOp

/-- What is adapted: the arguments `adapt_step_size` and `adapt_mass` are not `None`, and their values in this run.  (hmc.py 265–277)
-/
structure Flags where
  adaptsStep : Bool
  adaptStep : Bool
  adaptsMass : Bool
  adaptMass : Bool

variable {V : Type}

/-- Inputs and control inputs.  An operation that is not in the graph for these flags has none.  (hmc.py, lines as in `Op`) -/
def deps (f : Flags) : Op V → Set (Op V)
  | .newT => ∅
  | .ewmvT => ∅
  | .weight => {.ewmvT}
  | .incr _ => {.weight}
  | .updateMean v => {.incr v}
  | .newVar v => {.weight, .incr v, .updateMean v}
  | .updateVar v => {.newVar v}
  | .newMass v => {m | m = .updateVar v ∧ f.adaptMass}
  | .mass => {m | f.adaptsMass ∧ (m = .newT ∨ ∃ v, m = .newMass v)}
  | .momentum => {.mass}
  | .newStepSize => {m | f.adaptsStep ∧ (m = .newT ∨ m = .mass ∨ m = .momentum)}
  | .leapfrog => {.newStepSize, .momentum, .mass}
  | .oldLogProb => ∅
  | .oldHamiltonian => {.oldLogProb, .momentum, .mass}
  | .newLogProb => {.leapfrog}
  | .newHamiltonian => {.newLogProb, .leapfrog, .mass}
  | .rate => {.oldHamiltonian, .newHamiltonian, .newLogProb}
  | .ifAccept => {.rate}
  | .newQ _ => {.ifAccept, .leapfrog}
  | .updateQ v => {.newQ v}
  | .logProb => {.ifAccept, .newLogProb, .oldLogProb}
  | .step => {.newT}
  | .hBar => {.newT, .step, .rate}
  | .logEps => {.step, .hBar}
  | .logEpsBar => {.newT, .step, .logEps}
  | .tuned => {m | f.adaptStep ∧ (m = .logEps ∨ m = .logEpsBar)}
  | .updateStepSize => {.tuned}
  | .sampleOp => {m | (∃ v, m = .updateQ v) ∨ (f.adaptsStep ∧ m = .updateStepSize)}

/-- Variables read.  (hmc.py, lines as in `Op`) -/
def reads (f : Flags) : Op V → Set (Var V)
  | .newT => {.t}
  | .ewmvT => {x | x = .ewmvT ∧ f.adaptsMass ∧ f.adaptMass}
  | .incr v => {x | (x = .q v ∨ x = .mean v) ∧ f.adaptsMass ∧ f.adaptMass}
  | .updateMean v => {x | x = .mean v ∧ f.adaptsMass ∧ f.adaptMass}
  | .newVar v => {x | (x = .q v ∨ x = .var v) ∧ f.adaptsMass ∧ f.adaptMass}
  | .newMass v => {x | x = .var v ∧ f.adaptsMass ∧ f.adaptMass = false}
  | .newStepSize => {x | x = .stepSize ∨ ∃ v, x = .q v}
  | .leapfrog => {x | ∃ v, x = .q v}
  | .oldLogProb => {x | ∃ v, x = .q v}
  | .newQ v => {.q v}
  | .step => {x | x = .tunerStep ∧ f.adaptsStep ∧ f.adaptStep}
  | .hBar => {x | x = .hBar ∧ f.adaptsStep ∧ f.adaptStep}
  | .logEpsBar => {x | x = .logEpsBar ∧ f.adaptsStep ∧ f.adaptStep}
  | .tuned => {x | x = .logEpsBar ∧ f.adaptsStep ∧ f.adaptStep = false}
  | _ => ∅

/-- The variable assigned.  (hmc.py, lines as in `Op`) -/
def writes (f : Flags) : Op V → Option (Var V)
  | .newT => if f.adaptsStep then some .t else none
  | .ewmvT => if f.adaptsMass && f.adaptMass then some .ewmvT else none
  | .updateMean v => if f.adaptsMass && f.adaptMass then some (.mean v) else none
  | .updateVar v => if f.adaptsMass && f.adaptMass then some (.var v) else none
  | .updateQ v => some (.q v)
  | .step => if f.adaptsStep && f.adaptStep then some .tunerStep else none
  | .hBar => if f.adaptsStep && f.adaptStep then some .hBar else none
  | .logEpsBar => if f.adaptsStep && f.adaptStep then some .logEpsBar else none
  | .updateStepSize => if f.adaptsStep then some .stepSize else none
  | _ => none

/-- The graph of an iteration; `adapt_mass` is only allowed with `adapt_step_size` (hmc.py 270–272).  (hmc.py 382–522) -/
def graph (f : Flags) : Graph (Op V) (Var V) := ⟨deps f, reads f, writes f⟩

end ZhuSuan.HmcGraph
