import Verif.Model.HmcGraph
import Verif.Model.HmcFetch

/-!
# What the operations of an HMC iteration compute

The operations of `HmcGraph` with the formulas of zhusuan/hmc.py.  As in `Hmc`, one index `ι` stands for a latent variable together with
a position along its data axes; `at_ i` is the latent variable of `i`.
-/

set_option autoImplicit false

namespace ZhuSuan.HmcGraph
open Dataflow Hmc
open Classical

variable {α : Type} [Add α] [Sub α] [Neg α] [Mul α] [Div α] [Flt α]
variable {V C ι : Type} [Fintype C] [Fintype ι]

/-- The value of a tensor or of several: each operation fills the fields it has.  (hmc.py 382–522) -/
structure Val (α C ι : Type) where
  count : ℕ
  num : α
  chain : C → α
  data : ι → α
  full : C → ι → α
  momentum : C → ι → α
  flag : C → Bool

/-- A value with no field filled.  (hmc.py 382–522) -/
def Val.none : Val α C ι :=
  ⟨0, Flt.ofReal 0, fun _ => Flt.ofReal 0, fun _ => Flt.ofReal 0, fun _ _ => Flt.ofReal 0, fun _ _ => Flt.ofReal 0, fun _ => false⟩

/-- The list of the latent tensors.  (hmc.py 424) -/
def lists (at_ : ι → V) (x : V → Val α C ι) : C → ι → α := fun c i => (x (at_ i)).full c i

/-- A list of tensors of the data shapes.  (hmc.py 120–123, 151–152) -/
def dataLists (at_ : ι → V) (x : V → Val α C ι) : ι → α := fun i => (x (at_ i)).data i

/-- The flags of a run.  (hmc.py 265–277) -/
def flags (cfg : Cfg α) (feed : Feed) : Flags := ⟨cfg.adaptsStep, feed.adaptStep, cfg.adaptsMass, feed.adaptMass⟩

/-- `fresh_start` (95, 378): 1 if the step size is initialized in this run. -/
noncomputable def fresh (cfg : Cfg α) (t : ℕ) : α := Flt.ofReal (if ifInitialize cfg t then 1 else 0)

/-- What an operation computes; lines as in `Op`.  (hmc.py 382–522) -/
noncomputable def eval (cfg : Cfg α) (logPost : (C → ι → α) → C → α) (grad : (C → ι → α) → C → ι → α) (feed : Feed)
    (z : C → ι → α) (u : C → α) (at_ : ι → V) (n : Op V) (out : Op V → Val α C ι) (var : Var V → Val α C ι) : Val α C ι :=
  match n with
  | .newT => { Val.none with count := (var .t).count + 1 }
  | .ewmvT => if cfg.adaptsMass && feed.adaptMass then { Val.none with num := (var .ewmvT).num + Flt.ofReal 1 } else .none
  | .weight => { Val.none with
      num := (Flt.ofReal 1 - cfg.massDecay) / (Flt.ofReal 1 - Flt.pow cfg.massDecay (out .ewmvT).num) }
  | .incr v => if cfg.adaptsMass && feed.adaptMass then
      { Val.none with full := fun c i => (out .weight).num * ((var (.q v)).full c i - (var (.mean v)).data i) } else .none
  | .updateMean v => if cfg.adaptsMass && feed.adaptMass then
      { Val.none with data := fun i => (var (.mean v)).data i + chainMean fun c => (out (.incr v)).full c i } else .none
  | .newVar v => if cfg.adaptsMass && feed.adaptMass then
      { Val.none with
        data := fun i => (Flt.ofReal 1 - (out .weight).num) * (var (.var v)).data i +
          chainMean fun c => (out (.incr v)).full c i * ((var (.q v)).full c i - (out (.updateMean v)).data i) } else .none
  | .updateVar v => out (.newVar v)
  | .newMass v =>
      if feed.adaptMass then { Val.none with data := precision (out (.updateVar v)).data }
      else if cfg.adaptsMass then { Val.none with data := precision (var (.var v)).data } else .none
  | .mass => { Val.none with
      data := if cfg.adaptsMass then
          if (out .newT).count < cfg.massCollect then fun _ => Flt.ofReal 1 else dataLists at_ fun v => out (.newMass v)
        else fun _ => Flt.ofReal 1 }
  | .momentum => { Val.none with momentum := randomMomentum z (out .mass).data }
  | .newStepSize => { Val.none with
      num := if cfg.adaptsStep then
          (usedStepSize cfg logPost grad (out .newT).count (out .mass).data (lists at_ fun v => var (.q v)) (out .momentum).momentum
            (var .stepSize).num).getD (Flt.ofReal 0)
        else (var .stepSize).num }
  | .leapfrog =>
      let x := leapfrog (out .mass).data grad cfg.nLeapfrogs (out .newStepSize).num
        (lists at_ fun v => var (.q v), (out .momentum).momentum)
      { Val.none with full := x.1, momentum := x.2 }
  | .oldLogProb => { Val.none with chain := logPost (lists at_ fun v => var (.q v)) }
  | .oldHamiltonian => { Val.none with
      chain := fun c => (hamiltonian ((out .oldLogProb).chain c) ((out .momentum).momentum c) (out .mass).data).1 }
  | .newLogProb => { Val.none with chain := logPost (out .leapfrog).full }
  | .newHamiltonian => { Val.none with
      chain := fun c => (hamiltonian ((out .newLogProb).chain c) ((out .leapfrog).momentum c) (out .mass).data).1 }
  | .rate => { Val.none with
      chain := fun c => acceptanceRate ((out .oldHamiltonian).chain c) ((out .newHamiltonian).chain c) (-(-(out .newLogProb).chain c)) }
  | .ifAccept => { Val.none with flag := fun c => decide (Flt.lt (u c) ((out .rate).chain c)) }
  | .newQ v => { Val.none with
      full := fun c i => if (out .ifAccept).flag c then (out .leapfrog).full c i else (var (.q v)).full c i }
  | .updateQ v => out (.newQ v)
  | .logProb => { Val.none with
      chain := fun c => if (out .ifAccept).flag c then -(-(out .newLogProb).chain c) else -(-(out .oldLogProb).chain c) }
  | .step => if cfg.adaptsStep && feed.adaptStep then
      { Val.none with num := (Flt.ofReal 1 - fresh cfg (out .newT).count) * (var .tunerStep).num + Flt.ofReal 1 } else .none
  | .hBar => if cfg.adaptsStep && feed.adaptStep then
      let rate1 := Flt.ofReal 1 / ((out .step).num + cfg.tuner.t0)
      { Val.none with
        num := (Flt.ofReal 1 - fresh cfg (out .newT).count) * (Flt.ofReal 1 - rate1) * (var .hBar).num +
          rate1 * (cfg.tuner.delta - chainMean (out .rate).chain) } else .none
  | .logEps => { Val.none with num := cfg.tuner.mu - Flt.sqrt (out .step).num / cfg.tuner.gamma * (out .hBar).num }
  | .logEpsBar => if cfg.adaptsStep && feed.adaptStep then
      let w := Flt.pow (out .step).num (-cfg.tuner.kappa)
      { Val.none with
        num := w * (out .logEps).num +
          (Flt.ofReal 1 - fresh cfg (out .newT).count) * (Flt.ofReal 1 - w) * (var .logEpsBar).num } else .none
  | .tuned =>
      if feed.adaptStep then { Val.none with num := Flt.exp (out .logEps).num }
      else if cfg.adaptsStep then { Val.none with num := Flt.exp (var .logEpsBar).num } else .none
  | .updateStepSize => out .tuned
  | .sampleOp => .none

/-- The variables of the sampler.  (hmc.py 82–87, 118–123, 258–264, 424) -/
def decode (at_ : ι → V) (var : Var V → Val α C ι) : State α C ι :=
  ⟨lists at_ fun v => var (.q v), (var .t).count, (var .stepSize).num,
    ⟨(var .tunerStep).num, (var .logEpsBar).num, (var .hBar).num⟩,
    ⟨(var .ewmvT).num, dataLists at_ fun v => var (.mean v), dataLists at_ fun v => var (.var v)⟩⟩

/-- The statistics; without adaptation `updated_step_size` is the variable.  (hmc.py 501–516) -/
def decodeInfo (cfg : Cfg α) (at_ : ι → V) (out : Op V → Val α C ι) (var : Var V → Val α C ι) : Info α C ι where
  samples := lists at_ fun v => out (.newQ v)
  acceptanceRate := (out .rate).chain
  updatedStepSize := if cfg.adaptsStep then (out .updateStepSize).num else (var .stepSize).num
  initMomentum := (out .momentum).momentum
  origHamiltonian := (out .oldHamiltonian).chain
  hamiltonian := (out .newHamiltonian).chain
  origLogProb := fun c => -(-(out .oldLogProb).chain c)
  logProb := (out .logProb).chain

end ZhuSuan.HmcGraph
