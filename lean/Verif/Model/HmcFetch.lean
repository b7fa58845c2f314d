import Verif.Model.Hmc

/-!
# An iteration of HMC and the tensors fetched with it

`sess.run([sample_op, ...])` evaluates only what the fetched tensors depend on.  The tensor returned by `tf.check_numerics`
(zhusuan/hmc.py 51–53) is used by `orig_log_prob` and `log_prob` of `HMCInfo` (497, 514–515) and by nothing else: the
acceptance rate (54–59) is computed from `old_hamiltonian`, which is not checked.  `Hmc.sample` is the run in which these
statistics are fetched; here is the run for any choice of fetches.
-/

set_option autoImplicit false

namespace ZhuSuan.Hmc

variable {α : Type} [Add α] [Sub α] [Neg α] [Mul α] [Div α] [Flt α]
variable {C ι : Type} [Fintype C] [Fintype ι]

/-- The statistics of `HMCInfo` that are fetched with `sample_op`.  (hmc.py 162–201, 507–516) -/
structure Fetches where
  samples : Bool
  acceptanceRate : Bool
  updatedStepSize : Bool
  initMomentum : Bool
  origHamiltonian : Bool
  hamiltonian : Bool
  origLogProb : Bool
  logProb : Bool

/-- Whether the fetched tensors depend on the checked one: `old_log_prob` is `orig_log_prob` (514), and `log_prob` selects
between it and the new value with `tf.where`, which evaluates both (497).  (hmc.py 51–53, 497, 514–515) -/
def Fetches.checked (f : Fetches) : Bool := f.origLogProb || f.logProb

/-- The iteration without the check (hmc.py 382–522): what `sample_op` assigns and what the statistics are, `none` if the search
for a step size does not end. -/
noncomputable def iteration (cfg : Cfg α) (logPost : (C → ι → α) → C → α) (grad : (C → ι → α) → C → ι → α)
    (feed : Feed) (z : C → ι → α) (u : C → α) (s : State α C ι) : Option (State α C ι × Info α C ι) :=
  let t := s.t + 1
  let em := adaptMass cfg feed t s.q s.ewmv
  let mass := em.2
  let p := randomMomentum z mass
  (usedStepSize cfg logPost grad t mass s.q p s.stepSize).map fun eps =>
    let r := transition cfg.nLeapfrogs logPost grad mass eps s.q p u
    let tuned : α × Tuner α :=
      if cfg.adaptsStep then
        s.tuner.tune cfg.tuner feed.adaptStep (chainMean fun c => (r.mh c).rate) (ifInitialize cfg t)
      else (s.stepSize, s.tuner)
    (⟨r.newQ, if cfg.adaptsStep || cfg.adaptsMass then t else s.t, tuned.1, tuned.2, em.1⟩,
      { samples := r.newQ
        acceptanceRate := fun c => (r.mh c).rate
        updatedStepSize := tuned.1
        initMomentum := p
        origHamiltonian := fun c => (r.mh c).oldH
        hamiltonian := fun c => (r.mh c).newH
        origLogProb := fun c => (r.mh c).oldLogProb
        logProb := r.logProb })

open scoped Classical in
/-- `sess.run` of `sample_op` with the statistics `f`: the check fails if it is evaluated and an entry of `old_log_prob` is
infinite or NaN.  What the variables hold after a failed run is not modelled.  (hmc.py 51–53, 382–522) -/
noncomputable def sampleWith (f : Fetches) (cfg : Cfg α) (logPost : (C → ι → α) → C → α)
    (grad : (C → ι → α) → C → ι → α) (feed : Feed) (z : C → ι → α) (u : C → α) (s : State α C ι) : Outcome α C ι :=
  match iteration cfg logPost grad feed z u s with
  | none => .diverges
  | some (s', info) =>
    if f.checked = true ∧ ∃ c, ¬Flt.isFinite (info.origLogProb c) then .numericError else .ok s' info

/-- The choices of one run: what is fetched, what is fed, and the draws.  (hmc.py 218–245, 257–277) -/
structure Call (α C ι : Type) where
  fetches : Fetches
  feed : Feed
  z : C → ι → α
  u : C → α

/-- One run after the other, until one does not finish.  (the loop of the user, hmc.py 218–245) -/
noncomputable def runCalls (cfg : Cfg α) (logPost : (C → ι → α) → C → α) (grad : (C → ι → α) → C → ι → α) :
    List (Call α C ι) → State α C ι → Option (State α C ι)
  | [], s => some s
  | w :: ws, s =>
    match sampleWith w.fetches cfg logPost grad w.feed w.z w.u s with
    | .ok s' _ => runCalls cfg logPost grad ws s'
    | .numericError => none
    | .diverges => none

end ZhuSuan.Hmc
