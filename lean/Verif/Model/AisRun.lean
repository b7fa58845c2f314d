import Verif.Model.Ais
import Verif.Model.HmcFetch
import Verif.Model.ZeroDensity

/-!
# A run of AIS with special values and errors

`AIS.run` (zhusuan/evaluation.py 119–165) over reals extended by the infinities and NaN, with the errors that end it: the check of
`orig_log_prob` in the annealing runs and the division by the number of temperatures.  `Model/Ais.lean` has the run over reals.
-/

set_option autoImplicit false

namespace ZhuSuan.AisRun
open XF Hmc

/-- How a run ends: with a value, with the error of `tf.check_numerics`, with a `ZeroDivisionError`, or not at all.
(evaluation.py 113, 119–165, hmc.py 51–53) -/
inductive Res (β : Type) where
  | ok (x : β)
  | numericError
  | zeroDivision
  | diverges

/-- The next statement, if there is one.  (evaluation.py 119–165) -/
def Res.bind {β γ : Type} (x : Res β) (f : β → Res γ) : Res γ :=
  match x with
  | .ok x => f x
  | .numericError => .numericError
  | .zeroDivision => .zeroDivision
  | .diverges => .diverges

variable {n m : ℕ} {ι : Type} [Fintype ι]

/-- Chains: the first axis holds `n + 1` samples, the second `m + 1` data.  (evaluation.py 81) -/
abbrev Chains (n m : ℕ) := Fin (n + 1) × Fin (m + 1)

/-- What an `AIS` object holds: the HMC object, the two log densities, the gradient of `log_fn` at a temperature, and what the user
feeds for the adaptation flags.  (evaluation.py 79–110) -/
structure Ais (n m : ℕ) (ι : Type) where
  cfg : Cfg XF
  feed : Feed
  logPrior : (Chains n m → ι → XF) → Chains n m → XF
  logJoint : (Chains n m → ι → XF) → Chains n m → XF
  grad : ℝ → (Chains n m → ι → XF) → Chains n m → ι → XF

/-- `log_fn` (101–103) at one temperature. -/
noncomputable def Ais.logFn (a : Ais n m ι) (temperature : ℝ) (q : Chains n m → ι → XF) (c : Chains n m) : XF :=
  ZeroDensity.aisLogFn (fin temperature) (a.logPrior q c) (a.logJoint q c)

/-- The normal and uniform draws of one run of `sample_op`.  (hmc.py 21–23, 485–486) -/
structure Noise (n m : ℕ) (ι : Type) where
  z : Chains n m → ι → XF
  u : Chains n m → XF

/-- `sess.run` of `sample_op` with some statistics at one temperature.  (evaluation.py 133–135, 150–154) -/
noncomputable def Ais.sess (a : Ais n m ι) (f : Fetches) (temperature : ℝ) (w : Noise n m ι) (s : State XF (Chains n m) ι) :
    Res (State XF (Chains n m) ι × Info XF (Chains n m) ι) :=
  match sampleWith f a.cfg (a.logFn temperature) (a.grad temperature) a.feed w.z w.u s with
  | .ok s' info => .ok (s', info)
  | .numericError => .numericError
  | .diverges => .diverges

/-- The adaptation runs fetch the acceptance rate (133). -/
def adaptFetches : Fetches := ⟨false, true, false, false, false, false, false, false⟩

/-- The annealing runs fetch both log densities and the acceptance rate (150–152). -/
def annealFetches : Fetches := ⟨false, true, false, false, false, false, true, true⟩

/-- The adaptation loop (132–137). -/
noncomputable def Ais.adaptLoop (a : Ais n m ι) (temperature : ℝ) (w : ℕ → Noise n m ι) (s : State XF (Chains n m) ι) :
    ℕ → Res (State XF (Chains n m) ι)
  | 0 => .ok s
  | k + 1 => (a.adaptLoop temperature w s k).bind fun s => (a.sess adaptFetches temperature (w k) s).bind fun r => .ok r.1

/-- `k` rounds of the main loop, of `N` (146–159): the variables and `log_weights`.  The temperatures are exact numbers, not rounded
to `float32`. -/
noncomputable def Ais.annealLoop (a : Ais n m ι) (N : ℕ) (w : ℕ → Noise n m ι) (s : State XF (Chains n m) ι)
    (logWeights : Chains n m → XF) : ℕ → Res (State XF (Chains n m) ι × (Chains n m → XF))
  | 0 => .ok (s, logWeights)
  | k + 1 => (a.annealLoop N w s logWeights k).bind fun x =>
    (a.sess annealFetches (Ais.scheduleT N ((k + 1 : ℕ) : ℝ)) (w k) x.1).bind fun r =>
      .ok (r.1, fun c =>
        if k + 1 < N then x.2 c + (r.2.origLogProb c - r.2.logProb c) else x.2 c + r.2.origLogProb c)

/-- `AIS.run` (119–165) with `N` temperatures (a natural number) and `nAdapt` adaptation runs.  `draw1` and `draw2` are the samples that `init_latent` assigns;
`_get_lower_bound` (167–172) is the formula of `log_mean_exp`.  With no temperatures the first `_get_schedule_t` divides by the
integer zero (113).  Printing is left out. -/
noncomputable def Ais.run (a : Ais n m ι) (N nAdapt : ℕ) (draw1 draw2 : Chains n m → ι → XF) (wAdapt w : ℕ → Noise n m ι)
    (s : State XF (Chains n m) ι) : Res XF :=
  if N = 0 then .zeroDivision
  else
    let adpT := Ais.scheduleT N (if 1 < N then 2 else 1)
    (a.adaptLoop adpT wAdapt { s with q := draw1 } nAdapt).bind fun s =>
      let s := { s with q := draw2 }
      (a.annealLoop N w s (fun c => -a.logFn 0 s.q c) N).bind fun x =>
        .ok (ZeroDensity.reduceMean fun d => ZeroDensity.logMeanExp fun k => x.2 (k, d))

end ZhuSuan.AisRun
