import Verif.Model.Flt

/-!
# Hamiltonian Monte Carlo

`zhusuan/hmc.py`.  Latent tensors have shape `chain axes + data axes`.  The model has one index `C` for the
position along the chain axes and one index `ι` for a latent variable together with a position along its
data axes; so the list of latent tensors is one function `C → ι → α`, the mass (shape `[1, ..., 1] + data`)
is `ι → α`, and the log joint has values `C → α`.  The dictionaries of names are in `Model/HmcApi.lean`.
-/

set_option autoImplicit false

namespace ZhuSuan.Hmc
open Classical

variable {α : Type} [Add α] [Sub α] [Neg α] [Mul α] [Div α] [Flt α]
variable {C ι : Type} [Fintype C] [Fintype ι]

/-- `random_momentum` (hmc.py 21–23); `z` are the draws of `tf.random_normal`. -/
def randomMomentum (z : C → ι → α) (mass : ι → α) : C → ι → α := fun c i => z c i * Flt.sqrt (mass i)

/-- `velocity` (26–27). -/
def velocity (mass : ι → α) (p : C → ι → α) : C → ι → α := fun c i => p c i / mass i

/-- `hamiltonian` (30–35) of one chain, from its log posterior and momentum: the energy and the log
posterior. -/
noncomputable def hamiltonian (logPost : α) (p mass : ι → α) : α × α :=
  let potential := -logPost
  let kinetic := Flt.ofReal 0.5 * Flt.sum fun i => p i * p i / mass i
  (potential + kinetic, -potential)

/-- `leapfrog_integrator` (38–43). -/
def leapfrogIntegrator (mass : ι → α) (grad : (C → ι → α) → C → ι → α) (s1 s2 : α)
    (x : (C → ι → α) × (C → ι → α)) : (C → ι → α) × (C → ι → α) :=
  let q : C → ι → α := fun c i => x.1 c i + s1 * velocity mass x.2 c i
  let grads := grad q
  (q, fun c i => x.2 c i + s2 * grads c i)

/-- `HMC._leapfrog` (347–372): the loop runs for `i = 0, ..., n_leapfrogs`. -/
noncomputable def leapfrog (mass : ι → α) (grad : (C → ι → α) → C → ι → α) (n : ℕ) (stepSize : α)
    (x : (C → ι → α) × (C → ι → α)) : (C → ι → α) × (C → ι → α) :=
  (List.range (n + 1)).foldl (fun x i =>
    let s1 := if 0 < i then stepSize else Flt.ofReal 0
    let s2 := if i < n ∧ 0 < i then stepSize else stepSize / Flt.ofReal 2
    leapfrogIntegrator mass grad s1 s2 x) x

/-- The rate of one chain in `get_acceptance_rate` (54–59). -/
noncomputable def acceptanceRate (oldH newH newLogProb : α) : α :=
  let rate := Flt.exp (Flt.minimum (-newH + oldH) (Flt.ofReal 0))
  if Flt.isFinite rate ∧ Flt.isFinite newLogProb then rate else Flt.ofReal 0

/-- What `get_acceptance_rate` returns for one chain (60–61). -/
structure MH (α : Type) where
  oldH : α
  newH : α
  oldLogProb : α
  newLogProb : α
  rate : α

/-- `get_acceptance_rate` (46–61) of one chain.  The `tf.check_numerics` (51–53) is in `sample`. -/
noncomputable def getAcceptanceRate (oldLogPost newLogPost : α) (p newP mass : ι → α) : MH α :=
  let o := hamiltonian oldLogPost p mass
  let n := hamiltonian newLogPost newP mass
  ⟨o.1, n.1, o.2, n.2, acceptanceRate o.1 n.1 n.2⟩

/-! ## Step size -/

/-- Parameters of `StepsizeTuner.__init__` (64–80). -/
structure TunerCfg (α : Type) where
  gamma : α
  t0 : α
  kappa : α
  delta : α
  initial : α

/-- `self.mu` (79): ten times the initial step size. -/
def TunerCfg.mu (c : TunerCfg α) : α := Flt.ofReal 10 * c.initial

/-- The variables of `StepsizeTuner` (82–87). -/
structure Tuner (α : Type) where
  step : α
  logEpsBar : α
  hBar : α

/-- Their initial values.  (hmc.py 82–87) -/
def Tuner.init : Tuner α := ⟨Flt.ofReal 0, Flt.ofReal 0, Flt.ofReal 0⟩

/-- `StepsizeTuner.tune` (89–112): the new step size and the variables.  `freshStart` is 0 or 1; `adapt` is
the value of the `adapt_step_size` tensor. -/
noncomputable def Tuner.tune (c : TunerCfg α) (adapt : Bool) (rate : α) (freshStart : Bool) (s : Tuner α) :
    α × Tuner α :=
  let fresh : α := Flt.ofReal (if freshStart then 1 else 0)
  if adapt then
    let step := (Flt.ofReal 1 - fresh) * s.step + Flt.ofReal 1
    let rate1 := Flt.ofReal 1 / (step + c.t0)
    let hBar := (Flt.ofReal 1 - fresh) * (Flt.ofReal 1 - rate1) * s.hBar + rate1 * (c.delta - rate)
    let logEps := c.mu - Flt.sqrt step / c.gamma * hBar
    let w := Flt.pow step (-c.kappa)
    let logEpsBar := w * logEps + (Flt.ofReal 1 - fresh) * (Flt.ofReal 1 - w) * s.logEpsBar
    (Flt.exp logEps, ⟨step, logEpsBar, hBar⟩)
  else (Flt.exp s.logEpsBar, s)

/-- The loop variables of `HMC._init_step_size` (307–345). -/
structure Search (α : Type) where
  stepSize : α
  last : α
  cond : Bool

/-- The loop body (314–338); `rate` is the mean acceptance rate as a function of the step size. -/
noncomputable def searchBody (rate : α → α) (target : α) (s : Search α) : Search α :=
  let r := rate s.stepSize
  let stepSize := if Flt.lt r target then s.stepSize * (Flt.ofReal 1 / Flt.ofReal 1.5)
    else s.stepSize * Flt.ofReal 1.5
  ⟨stepSize, r, !(xor (decide (Flt.lt s.last target)) (decide (Flt.lt r target)))⟩

/-- The loop variables after `k` executions of the body.  (hmc.py 340–343) -/
noncomputable def searchIter (rate : α → α) (target : α) (initial : α) (k : ℕ) : Search α :=
  (searchBody rate target)^[k] ⟨initial, Flt.ofReal 1, true⟩

/-- `HMC._init_step_size` (307–345): the step size when the loop condition first fails, `none` if it never
does. -/
noncomputable def initStepSize (rate : α → α) (target : α) (initial : α) : Option α :=
  if h : ∃ k, (searchIter rate target initial k).cond = false then
    some (searchIter rate target initial (Nat.find h)).stepSize
  else none

/-! ## Mass -/

/-- The variables of `ExponentialWeightedMovingVariance` (115–127). -/
structure Ewmv (α ι : Type) where
  t : α
  mean : ι → α
  var : ι → α

/-- Their initial values.  (hmc.py 118–123) -/
def Ewmv.init : Ewmv α ι := ⟨Flt.ofReal 0, fun _ => Flt.ofReal 0, fun _ => Flt.ofReal 0⟩

/-- `tf.reduce_mean` over the chain axes.  (hmc.py 138, 143, 326, 377) -/
noncomputable def chainMean (f : C → α) : α := Flt.sum f / Flt.ofReal (Fintype.card C)

/-- `update` (129–149).  `incr` reads the old mean, `new_var` the one just assigned. -/
noncomputable def Ewmv.update (decay : α) (s : Ewmv α ι) (x : C → ι → α) : Ewmv α ι :=
  let t := s.t + Flt.ofReal 1
  let weight := (Flt.ofReal 1 - decay) / (Flt.ofReal 1 - Flt.pow decay t)
  let incr : C → ι → α := fun c i => weight * (x c i - s.mean i)
  let mean : ι → α := fun i => s.mean i + chainMean fun c => incr c i
  let var : ι → α := fun i => (Flt.ofReal 1 - weight) * s.var i +
    chainMean fun c => incr c i * (x c i - mean i)
  ⟨t, mean, var⟩

/-- `get_precision` (151–152). -/
noncomputable def precision (var : ι → α) : ι → α := fun i => Flt.ofReal 1 / var i

/-! ## One iteration -/

/-- Arguments of `HMC.__init__` (252–281) after its checks.  `adaptsStep` and `adaptsMass` say that the
argument is not `None`; without `adapt_mass`, `mass_collect_iters` is 0 (276). -/
structure Cfg (α : Type) where
  nLeapfrogs : ℕ
  target : α
  tuner : TunerCfg α
  adaptsStep : Bool
  adaptsMass : Bool
  massCollect : ℕ
  massDecay : α

/-- The values of the tensors `adapt_step_size` and `adapt_mass` in this run.  (hmc.py 257–277) -/
structure Feed where
  adaptStep : Bool
  adaptMass : Bool

/-- The TensorFlow variables.  The iteration counter `t` is a float variable in the code.  (hmc.py 82–87, 118–123,
252–281, 424) -/
structure State (α C ι : Type) where
  q : C → ι → α
  t : ℕ
  stepSize : α
  tuner : Tuner α
  ewmv : Ewmv α ι

/-- `HMCInfo` (162–201). -/
structure Info (α C ι : Type) where
  samples : C → ι → α
  acceptanceRate : C → α
  updatedStepSize : α
  initMomentum : C → ι → α
  origHamiltonian : C → α
  hamiltonian : C → α
  origLogProb : C → α
  logProb : C → α

/-- What a run of `sample_op` and the statistics does: fail in `tf.check_numerics`, not return, or finish.  (hmc.py 51–53,
340–343, 516–522) -/
inductive Outcome (α C ι : Type) where
  | numericError
  | diverges
  | ok (s : State α C ι) (info : Info α C ι)

/-- `HMC._adapt_mass` (283–305) and its caller (451–456): the variance estimator and the mass. -/
noncomputable def adaptMass (cfg : Cfg α) (feed : Feed) (t : ℕ) (q : C → ι → α) (e : Ewmv α ι) :
    Ewmv α ι × (ι → α) :=
  if cfg.adaptsMass then
    let e := if feed.adaptMass then e.update cfg.massDecay q else e
    let newMass := precision e.var
    (e, if t < cfg.massCollect then fun _ => Flt.ofReal 1 else newMass)
  else (e, fun _ => Flt.ofReal 1)

/-- `if_initialize_step_size` (466–467). -/
def ifInitialize (cfg : Cfg α) (t : ℕ) : Bool := t == 1 || t == cfg.massCollect

/-- The acceptance rate of one leapfrog step, averaged over chains (316–326). -/
noncomputable def trialRate (logPost : (C → ι → α) → C → α) (grad : (C → ι → α) → C → ι → α)
    (mass : ι → α) (q p : C → ι → α) (stepSize : α) : α :=
  let x := leapfrogIntegrator mass grad (Flt.ofReal 0) (stepSize / Flt.ofReal 2) (q, p)
  let x := leapfrogIntegrator mass grad stepSize (stepSize / Flt.ofReal 2) x
  chainMean fun c => (getAcceptanceRate (logPost q c) (logPost x.1 c) (p c) (x.2 c) mass).rate

/-- The step size used by the leapfrog integrator (462–472); `none` if the search does not end. -/
noncomputable def usedStepSize (cfg : Cfg α) (logPost : (C → ι → α) → C → α)
    (grad : (C → ι → α) → C → ι → α) (t : ℕ) (mass : ι → α) (q p : C → ι → α) (stepSize : α) : Option α :=
  if cfg.adaptsStep then
    if ifInitialize cfg t then initStepSize (trialRate logPost grad mass q p) cfg.target stepSize
    else some stepSize
  else some stepSize

/-- What the Metropolis–Hastings test computes (474–498), for all chains. -/
structure Trans (α C ι : Type) where
  newQ : C → ι → α
  mh : C → MH α
  logProb : C → α

/-- Leapfrog and Metropolis–Hastings test (474–498); `u` are the draws of `tf.random_uniform`. -/
noncomputable def transition (n : ℕ) (logPost : (C → ι → α) → C → α) (grad : (C → ι → α) → C → ι → α)
    (mass : ι → α) (stepSize : α) (q p : C → ι → α) (u : C → α) : Trans α C ι :=
  let x := leapfrog mass grad n stepSize (q, p)
  let lpOld := logPost q
  let lpNew := logPost x.1
  let mh : C → MH α := fun c => getAcceptanceRate (lpOld c) (lpNew c) (p c) (x.2 c) mass
  let accept : C → Prop := fun c => Flt.lt (u c) (mh c).rate
  { newQ := fun c i => if accept c then x.1 c i else q c i
    mh := mh
    logProb := fun c => if accept c then (mh c).newLogProb else (mh c).oldLogProb }

/-- One run of the operation returned by `HMC.sample` (382–522) with the log densities of `HMCInfo` fetched, for draws `z` of
`tf.random_normal` and `u` of `tf.random_uniform`.  A run that does not fetch them skips the check (51–53): `HmcFetch`.  Without adaptation nothing that is run depends on `new_t`, so the counter keeps its
value.  `logPost` and `grad` are `get_log_posterior` and `get_gradient` (426–432). -/
noncomputable def sample (cfg : Cfg α) (logPost : (C → ι → α) → C → α) (grad : (C → ι → α) → C → ι → α)
    (feed : Feed) (z : C → ι → α) (u : C → α) (s : State α C ι) : Outcome α C ι :=
  let t := s.t + 1
  let em := adaptMass cfg feed t s.q s.ewmv
  let mass := em.2
  let p := randomMomentum z mass
  match usedStepSize cfg logPost grad t mass s.q p s.stepSize with
  | none => .diverges
  | some eps =>
    let r := transition cfg.nLeapfrogs logPost grad mass eps s.q p u
    if ∀ c, Flt.isFinite (r.mh c).oldLogProb then
      let tuned : α × Tuner α :=
        if cfg.adaptsStep then
          s.tuner.tune cfg.tuner feed.adaptStep (chainMean fun c => (r.mh c).rate) (ifInitialize cfg t)
        else (s.stepSize, s.tuner)
      .ok ⟨r.newQ, if cfg.adaptsStep || cfg.adaptsMass then t else s.t, tuned.1, tuned.2, em.1⟩
        { samples := r.newQ
          acceptanceRate := fun c => (r.mh c).rate
          updatedStepSize := tuned.1
          initMomentum := p
          origHamiltonian := fun c => (r.mh c).oldH
          hamiltonian := fun c => (r.mh c).newH
          origLogProb := fun c => (r.mh c).oldLogProb
          logProb := r.logProb }
    else .numericError

/-- `k` runs of the operation returned by `HMC.sample`, one after the other (the loop of the user, hmc.py
218–245); `none` if one of them fails or does not return. -/
noncomputable def runs (cfg : Cfg α) (logPost : (C → ι → α) → C → α) (grad : (C → ι → α) → C → ι → α)
    (feed : Feed) (s : State α C ι) : (k : ℕ) → (Fin k → (C → ι → α) × (C → α)) → Option (State α C ι)
  | 0, _ => some s
  | k + 1, w =>
    match runs cfg logPost grad feed s k (fun i => w i.castSucc) with
    | none => none
    | some s =>
      match sample cfg logPost grad feed (w (Fin.last k)).1 (w (Fin.last k)).2 s with
      | .ok s _ => some s
      | .numericError => none
      | .diverges => none

end ZhuSuan.Hmc
