import Verif.Model.Hmc

/-!
# Annealed importance sampling

`zhusuan/evaluation.py`, class `AIS`.
-/

set_option autoImplicit false

namespace ZhuSuan.Ais

/-- `AIS._map_t` (112–113). -/
noncomputable def mapT (n : ℕ) (t : ℝ) : ℝ := 1 / (1 + Real.exp (-4 * (2 * t / n - 1)))

/-- `AIS._get_schedule_t` (115–117). -/
noncomputable def scheduleT (n : ℕ) (t : ℝ) : ℝ := (mapT n t - mapT n 0) / (mapT n n - mapT n 0)

/-- `log_fn` (101–103) at one temperature, from the values of `log_prior` and `log_joint`. -/
def logFn {Q C : Type} (logPrior logJoint : Q → C → ℝ) (temperature : ℝ) (q : Q) (c : C) : ℝ :=
  logPrior q c * (1 - temperature) + logJoint q c * temperature

variable {S N C : Type}

/-- What `sess.run([self.sample_op, orig_log_prob, log_prob])` does: new values of the variables and the two
log probabilities of each chain; `none` if it fails or does not return.  (evaluation.py 132–135, 150–154) -/
abbrev SampleOp (S N C : Type) := ℝ → N → S → Option (S × (C → ℝ) × (C → ℝ))

/-- The body of the main loop (146–159); `numT` counts from 0. -/
noncomputable def annealStep (op : SampleOp S N C) (n : ℕ) (numT : ℕ) (noise : N) (x : S × (C → ℝ)) :
    Option (S × (C → ℝ)) :=
  let temperature := scheduleT n ((numT + 1 : ℕ) : ℝ)
  match op temperature noise x.1 with
  | none => none
  | some (s, oldLogP, newLogP) =>
    if numT + 1 < n then some (s, fun c => x.2 c + (oldLogP c - newLogP c))
    else some (s, fun c => x.2 c + oldLogP c)

/-- The first `k` rounds of the main loop.  (evaluation.py 146–159) -/
noncomputable def annealLoop (op : SampleOp S N C) (n : ℕ) (x : S × (C → ℝ)) :
    (k : ℕ) → (Fin k → N) → Option (S × (C → ℝ))
  | 0, _ => some x
  | k + 1, noise =>
    match annealLoop op n x k (fun i => noise i.castSucc) with
    | none => none
    | some y => annealStep op n k (noise (Fin.last k)) y

/-- The adaptation loop (132–135). -/
noncomputable def adaptLoop (op : SampleOp S N C) (temperature : ℝ) (s : S) :
    (k : ℕ) → (Fin k → N) → Option S
  | 0, _ => some s
  | k + 1, noise =>
    match adaptLoop op temperature s k (fun i => noise i.castSucc) with
    | none => none
    | some s =>
      match op temperature (noise (Fin.last k)) s with
      | none => none
      | some (s, _) => some s

/-- The log weights computed by `AIS.run` (119–163): adaptation from a first draw of the proposal, then
annealing from a second one.  `initLatent` is the assignment of proposal samples to the variables and
`logPriorVal` is `log_fn_val` at temperature 0.  With `n_temperatures = 0` the schedule divides by zero.
The printing under `verbose` is left out. -/
noncomputable def logWeights {Q : Type} (op : SampleOp S N C) (initLatent : Q → S → S)
    (logPriorVal : S → C → ℝ) (n nAdapt : ℕ) (s : S) (draw1 draw2 : Q) (adaptNoise : Fin nAdapt → N)
    (noise : Fin n → N) : Option (C → ℝ) :=
  if n = 0 then none
  else
    let adpT := scheduleT n (if 1 < n then 2 else 1)
    match adaptLoop op adpT (initLatent draw1 s) nAdapt adaptNoise with
    | none => none
    | some s =>
      let s := initLatent draw2 s
      (annealLoop op n (s, fun c => -logPriorVal s c) n noise).map Prod.snd

/-- `AIS._get_lower_bound` (167–172): `K` is the first axis, `D` the others. -/
noncomputable def lowerBound {K D : Type} [Fintype K] [Nonempty K] (logWeights : K → D → ℝ) (d : D) : ℝ :=
  let m := Finset.univ.sup' Finset.univ_nonempty fun k => logWeights k d
  Real.log ((∑ k, Real.exp (logWeights k d - m)) / Fintype.card K) + m

/-- The value returned by `AIS.run` (165). -/
noncomputable def result {K D : Type} [Fintype K] [Nonempty K] [Fintype D] (logWeights : K → D → ℝ) : ℝ :=
  (∑ d, lowerBound logWeights d) / Fintype.card D

variable {ι : Type} [Fintype C] [Fintype ι]

/-- `sample_op` built from HMC (79–108): `log_fn` is the log joint given to `HMC.sample`; the noise of one
run are its normal and uniform draws. -/
noncomputable def hmcOp (cfg : Hmc.Cfg ℝ) (feed : Hmc.Feed) (logPrior logJoint : (C → ι → ℝ) → C → ℝ)
    (grad : ℝ → (C → ι → ℝ) → C → ι → ℝ) :
    SampleOp (Hmc.State ℝ C ι) ((C → ι → ℝ) × (C → ℝ)) C := fun temperature w s =>
  match Hmc.sample cfg (logFn logPrior logJoint temperature) (grad temperature) feed w.1 w.2 s with
  | .ok s' info => some (s', info.origLogProb, info.logProb)
  | .numericError => none
  | .diverges => none

end ZhuSuan.Ais
