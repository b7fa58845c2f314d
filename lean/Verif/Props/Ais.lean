import Mathlib.MeasureTheory.Integral.Bochner.Basic
import Verif.Lemmas.Ais
import Verif.Props.Hmc

/-!
# C47–C49  Annealed importance sampling
-/

set_option autoImplicit false

open MeasureTheory ProbabilityTheory Set
open scoped ENNReal

namespace ZhuSuan.Ais

/-! ## C47 -/

theorem mapT_strictMono (n : ℕ) (hn : n ≠ 0) : StrictMono (mapT n) := by
  intro s t h
  have hn' : (0 : ℝ) < n := by positivity
  have h1 : 2 * s / n < 2 * t / n := by gcongr
  have h2 : Real.exp (-4 * (2 * t / n - 1)) < Real.exp (-4 * (2 * s / n - 1)) :=
    Real.exp_lt_exp.2 (by linarith)
  exact one_div_lt_one_div_of_lt (by positivity) (by linarith)

/-- C47.  The schedule starts at 0, ends at 1 and is strictly increasing, in steps and in between. -/
theorem C47_schedule (n : ℕ) (hn : n ≠ 0) :
    scheduleT n 0 = 0 ∧ scheduleT n n = 1 ∧ StrictMono (scheduleT n) := by
  have hm := mapT_strictMono n hn
  have hpos : 0 < mapT n n - mapT n 0 := sub_pos.2 (hm (by positivity))
  refine ⟨by simp [scheduleT], by rw [scheduleT, div_self hpos.ne'], fun s t h => ?_⟩
  have := hm h
  simp only [scheduleT]
  gcongr

/-- C47.  So the temperatures of the main loop are in (0, 1], and only the last one is 1. -/
theorem C47_range (n : ℕ) (hn : n ≠ 0) (k : ℕ) (hk : k < n) :
    0 < scheduleT n ((k + 1 : ℕ) : ℝ) ∧ scheduleT n ((k + 1 : ℕ) : ℝ) ≤ 1 ∧
    (scheduleT n ((k + 1 : ℕ) : ℝ) = 1 ↔ k + 1 = n) := by
  obtain ⟨h0, h1, hm⟩ := C47_schedule n hn
  refine ⟨?_, ?_, ?_⟩
  · rw [← h0]; exact hm (by positivity)
  · rw [← h1]; exact hm.monotone (by exact_mod_cast hk)
  · rw [← h1, hm.injective.eq_iff, Nat.cast_inj]

/-- A concrete case: the middle of the schedule with two temperatures. -/
example : scheduleT 2 1 = 1 / 2 := by
  have h : (0 : ℝ) < Real.exp 4 := Real.exp_pos 4
  have h1 : (1 : ℝ) < Real.exp 4 := Real.one_lt_exp_iff.2 (by norm_num)
  have e : mapT 2 ((2 : ℕ) : ℝ) = Real.exp 4 / (Real.exp 4 + 1) := by
    have : (-4 * (2 * ((2 : ℕ) : ℝ) / ((2 : ℕ) : ℝ) - 1) : ℝ) = -4 := by norm_num
    rw [mapT, this, Real.exp_neg]
    field_simp
  have e0 : mapT 2 0 = 1 / (1 + Real.exp 4) := by norm_num [mapT]
  have e1 : mapT 2 1 = 1 / 2 := by norm_num [mapT]
  rw [scheduleT, e, e0, e1]
  have : Real.exp 4 - 1 ≠ 0 := by linarith
  rw [div_eq_div_iff]
  · field_simp; ring
  · have : Real.exp 4 / (Real.exp 4 + 1) - 1 / (1 + Real.exp 4) = (Real.exp 4 - 1) / (Real.exp 4 + 1) := by
      field_simp
      ring
    rw [this]
    positivity
  · norm_num

/-! ## C48 -/

section
variable {X N : Type} [MeasurableSpace X] [MeasurableSpace N]

/-- The last transition does not enter the weight. -/
theorem lintegral_final (base : Measure X) [SFinite base] (ν : Measure N) [IsProbabilityMeasure ν]
    (l : ℕ → X → ℝ) (hl : ∀ k, Measurable (l k)) (step : ℕ → N → X → X)
    (hs : ∀ k, Measurable fun p : N × X => step k p.1 p.2)
    (hinv : ∀ k {F : X → ℝ≥0∞}, Measurable F →
      ∫⁻ x, ENNReal.ofReal (Real.exp (l k x)) * ∫⁻ n, F (step k n x) ∂ν ∂base =
        ∫⁻ x, ENNReal.ofReal (Real.exp (l k x)) * F x ∂base) (k : ℕ) :
    ∫⁻ p, ENNReal.ofReal (Real.exp (wt l step p.1 k (fun i => p.2 i.castSucc) +
        l (k + 1) (path step p.1 k fun i => p.2 i.castSucc)))
      ∂((base.withDensity fun x => ENNReal.ofReal (Real.exp (l 0 x))).prod
        (Measure.pi fun _ : Fin (k + 1) => ν)) =
      ∫⁻ x, ENNReal.ofReal (Real.exp (l (k + 1) x)) ∂base := by
  have mw := measurable_wt l hl step hs k
  have mp := measurable_path step hs k
  have mW : Measurable fun p : X × (Fin k → N) =>
      ENNReal.ofReal (Real.exp (wt l step p.1 k p.2 + l (k + 1) (path step p.1 k p.2))) :=
    measurable_expOf (mw.add ((hl (k + 1)).comp mp))
  have mW' : Measurable fun p : X × (Fin (k + 1) → N) =>
      ENNReal.ofReal (Real.exp (wt l step p.1 k (fun i => p.2 i.castSucc) +
        l (k + 1) (path step p.1 k fun i => p.2 i.castSucc))) := mW.comp (measurable_init k)
  rw [lintegral_prod _ mW'.aemeasurable,
    lintegral_withDensity_eq_lintegral_mul _ (measurable_expOf (hl 0)) mW'.lintegral_prod_right,
    ← lintegral_wt base ν l hl step hs hinv k (measurable_expOf (hl (k + 1)))]
  refine lintegral_congr fun x => ?_
  simp only [Pi.mul_apply]
  congr 1
  have hmp : MeasurePreserving (fun (w : Fin (k + 1) → N) (i : Fin k) => w i.castSucc)
      (Measure.pi fun _ => ν) (Measure.pi fun _ => ν) := by
    have h := measurePreserving_piFinSuccAbove (fun _ : Fin (k + 1) => ν) (Fin.last k)
    have h2 := (measurePreserving_snd (μ := ν) (ν := Measure.pi fun _ : Fin k => ν)).comp h
    refine cast (congrArg (fun f => MeasurePreserving f _ _) (funext fun w => funext fun i => ?_)) h2
    show w ((Fin.last k).succAbove i) = w i.castSucc
    rw [Fin.succAbove_last]
  have mWx : Measurable fun w : Fin k → N =>
      ENNReal.ofReal (Real.exp (wt l step x k w + l (k + 1) (path step x k w))) :=
    mW.comp measurable_prodMk_left
  rw [hmp.lintegral_comp mWx]
  refine lintegral_congr fun w => ?_
  rw [exp_sub_mul]

/-- C48, for any sampler of one chain.  If each transition leaves its annealed density `exp (l t)` invariant
and reports its log densities before and after, and the start has density `exp (l 0)`, then the weights of
the main loop have expectation `∫ exp (l 1)`. -/
theorem C48_unbiased (base : Measure X) [SFinite base] (ν : Measure N) [IsProbabilityMeasure ν]
    (op : SampleOp X N Unit) (step : ℝ → N → X → X) (l : ℝ → X → ℝ) (hl : ∀ t, Measurable (l t))
    (hs : ∀ t, Measurable fun p : N × X => step t p.1 p.2)
    (hop : ∀ t w x, op t w x = some (step t w x, fun _ => l t x, fun _ => l t (step t w x)))
    (hinv : ∀ t, ((base.withDensity fun x => ENNReal.ofReal (Real.exp (l t x))).prod ν).map
      (fun p => step t p.2 p.1) = base.withDensity fun x => ENNReal.ofReal (Real.exp (l t x)))
    (n : ℕ) (hn : n ≠ 0) (W : X × (Fin n → N) → ℝ)
    (hW : ∀ x w, (annealLoop op n (x, fun _ => -l 0 x) n w).map Prod.snd = some fun _ => W (x, w)) :
    ∫⁻ p, ENNReal.ofReal (Real.exp (W p))
      ∂((base.withDensity fun x => ENNReal.ofReal (Real.exp (l 0 x))).prod (Measure.pi fun _ : Fin n => ν)) =
      ∫⁻ x, ENNReal.ofReal (Real.exp (l 1 x)) ∂base := by
  obtain ⟨k, rfl⟩ := Nat.exists_eq_succ_of_ne_zero hn
  obtain ⟨s0, s1, _⟩ := C47_schedule (k + 1) hn
  set l' : ℕ → X → ℝ := fun j => l (scheduleT (k + 1) j) with hl'
  set step' : ℕ → N → X → X := fun j => step (scheduleT (k + 1) j) with hstep'
  have e0 : l' 0 = l 0 := by simp only [hl', Nat.cast_zero, s0]
  have e1 : l' (k + 1) = l 1 := by simp only [hl', s1]
  have hinv' : ∀ j {F : X → ℝ≥0∞}, Measurable F →
      ∫⁻ x, ENNReal.ofReal (Real.exp (l' j x)) * ∫⁻ n, F (step' j n x) ∂ν ∂base =
        ∫⁻ x, ENNReal.ofReal (Real.exp (l' j x)) * F x ∂base := by
    intro j F hF
    have h := hinv (scheduleT (k + 1) j)
    have ms : Measurable fun p : X × N => step (scheduleT (k + 1) j) p.2 p.1 :=
      (hs (scheduleT (k + 1) j)).comp measurable_swap
    have mF : Measurable fun p : X × N => F (step (scheduleT (k + 1) j) p.2 p.1) := hF.comp ms
    have h2 := congrArg (fun μ => ∫⁻ x, F x ∂μ) h
    rw [lintegral_map hF ms, lintegral_prod _ mF.aemeasurable,
      lintegral_withDensity_eq_lintegral_mul _ (measurable_expOf (hl _)) mF.lintegral_prod_right,
      lintegral_withDensity_eq_lintegral_mul _ (measurable_expOf (hl _)) hF] at h2
    exact h2
  have h := lintegral_final base ν l' (fun j => hl _) step' (fun j => hs _) hinv' k
  rw [e0, e1] at h
  rw [← h]
  refine lintegral_congr fun p => ?_
  obtain ⟨y, lw', lw'', h1, _, h3, h4, h5, h6⟩ := annealLoop_chain op (k + 1) () id id step' l' (fun _ => True)
    (fun j s w _ => ⟨_, _, _, hop _ w s, trivial, rfl, rfl, rfl⟩) p.1 trivial (fun _ => -l 0 p.1)
    (by simp [e0]) k (by omega) p.2
  have h7 := hW p.1 p.2
  rw [h5, Option.some.injEq] at h7
  have h8 := h6 rfl
  rw [h7, h4, e1] at h8
  simp only [id] at h3 h8
  rw [h8, h3]

end

variable {C ι : Type} [Fintype C] [Fintype ι]

/-- The annealed log density of one chain at step `j` of the schedule (`log_fn`, evaluation.py 101–103). -/
noncomputable def annealed (n : ℕ) (lp lj : (ι → ℝ) → ℝ) (j : ℕ) (q : ι → ℝ) : ℝ :=
  lp q * (1 - scheduleT n j) + lj q * scheduleT n j

/-- The move of one chain at step `j` (`self.sample_op`, evaluation.py 105–108). -/
noncomputable def annealMove (L n : ℕ) (eps : ℝ) (lp lj : (ι → ℝ) → ℝ) (g : ℝ → (ι → ℝ) → ι → ℝ) (j : ℕ)
    (w : (ι → ℝ) × ℝ) (q : ι → ℝ) : ι → ℝ :=
  Hmc.chainStep (fun _ => 1) (g (scheduleT n j)) (annealed n lp lj j) L eps q w.1 w.2

/-- The log weight of one chain with `k + 1` temperatures from its own draws (evaluation.py 137–159). -/
noncomputable def chainWeight (L : ℕ) (eps : ℝ) (lp lj : (ι → ℝ) → ℝ) (g : ℝ → (ι → ℝ) → ι → ℝ) (k : ℕ)
    (p : (ι → ℝ) × (Fin (k + 1) → (ι → ℝ) × ℝ)) : ℝ :=
  wt (annealed (k + 1) lp lj) (annealMove L (k + 1) eps lp lj g) p.1 k (fun i => p.2 i.castSucc) +
    lj (path (annealMove L (k + 1) eps lp lj g) p.1 k fun i => p.2 i.castSucc)

/-- The draws of one chain among those of all chains. -/
def oneChain {n : ℕ} (c : C) (p : (C → ι → ℝ) × (Fin n → (C → ι → ℝ) × (C → ℝ))) :
    (ι → ℝ) × (Fin n → (ι → ℝ) × ℝ) := (p.1 c, fun i => ((p.2 i).1 c, (p.2 i).2 c))

/-- The law of the draws of one chain: the proposal and standard normal and uniform noise. -/
noncomputable def chainLaw (lp : (ι → ℝ) → ℝ) (n : ℕ) : Measure ((ι → ℝ) × (Fin n → (ι → ℝ) × ℝ)) :=
  (volume.withDensity fun q => ENNReal.ofReal (Real.exp (lp q))).prod
    (Measure.pi fun _ => (Measure.pi fun _ => gaussianReal 0 1).prod (volume.restrict (Ico 0 1)))

theorem measurable_annealed (n : ℕ) {lp lj : (ι → ℝ) → ℝ} (hp : Measurable lp) (hj : Measurable lj) (j : ℕ) :
    Measurable (annealed n lp lj j) := (hp.mul_const _).add (hj.mul_const _)

theorem measurable_annealMove (L n : ℕ) (eps : ℝ) {lp lj : (ι → ℝ) → ℝ} (hp : Measurable lp) (hj : Measurable lj)
    {g : ℝ → (ι → ℝ) → ι → ℝ} (hg : ∀ t, Measurable (g t)) (j : ℕ) :
    Measurable fun p : ((ι → ℝ) × ℝ) × (ι → ℝ) => annealMove L n eps lp lj g j p.1 p.2 := by
  have h := Hmc.measurable_chainStep (fun _ => 1) (g (scheduleT n j)) (annealed n lp lj j) L eps (hg _)
    (measurable_annealed n hp hj j)
  exact h.comp (measurable_snd.prodMk measurable_fst)

theorem measurable_chainWeight (L : ℕ) (eps : ℝ) {lp lj : (ι → ℝ) → ℝ} (hp : Measurable lp) (hj : Measurable lj)
    {g : ℝ → (ι → ℝ) → ι → ℝ} (hg : ∀ t, Measurable (g t)) (k : ℕ) :
    Measurable (chainWeight L eps lp lj g k) :=
  ((measurable_wt _ (measurable_annealed (k + 1) hp hj) _ (measurable_annealMove L (k + 1) eps hp hj hg) k).comp
    (measurable_init k)).add (hj.comp ((measurable_path _ (measurable_annealMove L (k + 1) eps hp hj hg) k).comp
      (measurable_init k)))

/-- The expected weight of one chain. -/
theorem chainWeight_mean (L : ℕ) (eps : ℝ) {lp lj : (ι → ℝ) → ℝ} (hp : Measurable lp) (hj : Measurable lj)
    {g : ℝ → (ι → ℝ) → ι → ℝ} (hg : ∀ t, Measurable (g t)) (k : ℕ) :
    ∫⁻ p, ENNReal.ofReal (Real.exp (chainWeight L eps lp lj g k p)) ∂(chainLaw lp (k + 1)) =
      ∫⁻ q, ENNReal.ofReal (Real.exp (lj q)) := by
  obtain ⟨s0, s1, _⟩ := C47_schedule (k + 1) (Nat.succ_ne_zero k)
  have ml := measurable_annealed (k + 1) hp hj
  have ms := measurable_annealMove L (k + 1) eps hp hj hg
  have e0 : annealed (k + 1) lp lj 0 = lp := by
    funext q; simp only [annealed, Nat.cast_zero, s0]; ring
  have e1 : annealed (k + 1) lp lj (k + 1) = lj := by
    funext q; simp only [annealed, s1]; ring
  have hun : IsProbabilityMeasure (volume.restrict (Ico (0 : ℝ) 1)) := ⟨by simp⟩
  have hinv : ∀ j {F : (ι → ℝ) → ℝ≥0∞}, Measurable F →
      ∫⁻ x, ENNReal.ofReal (Real.exp (annealed (k + 1) lp lj j x)) *
        ∫⁻ w, F (annealMove L (k + 1) eps lp lj g j w x)
        ∂((Measure.pi fun _ : ι => gaussianReal 0 1).prod (volume.restrict (Ico 0 1))) =
      ∫⁻ x, ENNReal.ofReal (Real.exp (annealed (k + 1) lp lj j x)) * F x := by
    intro j F hF
    have h := Hmc.chain_lintegral (fun _ : ι => (1 : ℝ)) (g (scheduleT (k + 1) j)) (annealed (k + 1) lp lj j) L
      eps (hg _) (ml j) (fun _ => one_pos) hF
    simp only [Real.sqrt_one, mul_one] at h
    have mF : Measurable fun p : (ι → ℝ) × ((ι → ℝ) × ℝ) => F (annealMove L (k + 1) eps lp lj g j p.2 p.1) :=
      hF.comp ((ms j).comp measurable_swap)
    have e : ∀ x, ∫⁻ z, (∫⁻ u, F (Hmc.chainStep (fun _ => 1) (g (scheduleT (k + 1) j)) (annealed (k + 1) lp lj j)
        L eps x z u) ∂Hmc.unif) ∂(Measure.pi fun _ : ι => gaussianReal 0 1) =
        ∫⁻ w, F (annealMove L (k + 1) eps lp lj g j w x)
          ∂((Measure.pi fun _ : ι => gaussianReal 0 1).prod (volume.restrict (Ico 0 1))) := by
      intro x
      have mFx : Measurable fun w : (ι → ℝ) × ℝ => F (annealMove L (k + 1) eps lp lj g j w x) :=
        mF.comp measurable_prodMk_left
      rw [lintegral_prod _ mFx.aemeasurable]
      rfl
    simp only [e, Hmc.target] at h
    rw [lintegral_withDensity_eq_lintegral_mul _ (measurable_expOf (ml j)) mF.lintegral_prod_right,
      lintegral_withDensity_eq_lintegral_mul _ (measurable_expOf (ml j)) hF] at h
    exact h
  have h := lintegral_final (volume : Measure (ι → ℝ))
    ((Measure.pi fun _ : ι => gaussianReal 0 1).prod (volume.restrict (Ico 0 1))) _ ml _ ms hinv k
  simp only [e0, e1] at h
  exact h

/-- The log weights that `run` computes with the library's HMC without adaptation: each chain's from its own
draws. -/
theorem hmc_weights (cfg : Hmc.Cfg ℝ) (h1 : cfg.adaptsStep = false) (h2 : cfg.adaptsMass = false) (feed : Hmc.Feed)
    (logPrior logJoint : C → (ι → ℝ) → ℝ) (g : ℝ → C → (ι → ℝ) → ι → ℝ) (k nAdapt : ℕ)
    (s : Hmc.State ℝ C ι) (draw1 : C → ι → ℝ) (adaptNoise : Fin nAdapt → (C → ι → ℝ) × (C → ℝ))
    (q : C → ι → ℝ) (w : Fin (k + 1) → (C → ι → ℝ) × (C → ℝ)) [Nonempty C] :
    logWeights (hmcOp cfg feed (fun q c => logPrior c (q c)) (fun q c => logJoint c (q c))
        (fun t q c => g t c (q c))) (fun q s => { s with q := q })
      (fun s c => logFn (fun q c => logPrior c (q c)) (fun q c => logJoint c (q c)) 0 s.q c)
      (k + 1) nAdapt s draw1 q adaptNoise w =
      some fun c => chainWeight cfg.nLeapfrogs s.stepSize (logPrior c) (logJoint c) (fun t => g t c) k
        (oneChain c (q, w)) := by
  obtain ⟨s0, s1, _⟩ := C47_schedule (k + 1) (Nat.succ_ne_zero k)
  set op := hmcOp cfg feed (fun q c => logPrior c (q c)) (fun q c => logJoint c (q c))
    (fun t q c => g t c (q c)) with hop'
  set l : C → ℕ → (ι → ℝ) → ℝ := fun c => annealed (k + 1) (logPrior c) (logJoint c) with hl
  set step : C → ℕ → (ι → ℝ) × ℝ → (ι → ℝ) → ι → ℝ := fun c =>
    annealMove cfg.nLeapfrogs (k + 1) s.stepSize (logPrior c) (logJoint c) (fun t => g t c) with hstep
  have e0 : ∀ c, l c 0 = logPrior c := by
    intro c; funext q; simp only [hl, annealed, Nat.cast_zero, s0]; ring
  have e1 : ∀ c, l c (k + 1) = logJoint c := by
    intro c; funext q; simp only [hl, annealed, s1]; ring
  -- one run of the operation
  have hop : ∀ t w x, ∃ info : Hmc.Info ℝ C ι,
      op t w x = some ({ x with q := (Hmc.transition cfg.nLeapfrogs
        (logFn (fun q c => logPrior c (q c)) (fun q c => logJoint c (q c)) t)
        (fun q c => g t c (q c)) (fun _ => 1) x.stepSize x.q w.1 w.2).newQ },
        info.origLogProb, info.logProb) ∧
      (∀ c, info.origLogProb c = logFn (fun q c => logPrior c (q c)) (fun q c => logJoint c (q c)) t x.q c) ∧
      (∀ c, info.logProb c = logFn (fun q c => logPrior c (q c)) (fun q c => logJoint c (q c)) t
        (Hmc.transition cfg.nLeapfrogs
        (logFn (fun q c => logPrior c (q c)) (fun q c => logJoint c (q c)) t)
        (fun q c => g t c (q c)) (fun _ => 1) x.stepSize x.q w.1 w.2).newQ c) := by
    intro t w x
    obtain ⟨info, hi⟩ := Hmc.C53_fixed cfg h1 h2 (logFn (fun q c => logPrior c (q c)) (fun q c => logJoint c (q c)) t)
      (fun q c => g t c (q c)) feed w.1 w.2 x
    have ho := Hmc.C53_outputs cfg _ _ (fun c => ⟨fun q => logPrior c q * (1 - t) + logJoint c q * t,
      fun q => rfl⟩) feed w.1 w.2 x _ info hi
    refine ⟨info, ?_, ho.2.2.1, ho.2.2.2.1⟩
    simp only [hop', hmcOp, hi]
  -- the adaptation phase returns with the same step size
  have hadapt : ∀ (t : ℝ) (x : Hmc.State ℝ C ι) (m : ℕ) (w : Fin m → (C → ι → ℝ) × (C → ℝ)),
      ∃ y, adaptLoop op t x m w = some y ∧ y.stepSize = x.stepSize := by
    intro t x m
    induction m with
    | zero => intro w; exact ⟨x, rfl, rfl⟩
    | succ m ih =>
      intro w
      obtain ⟨y, hy, hye⟩ := ih fun i => w i.castSucc
      obtain ⟨info, hi, _⟩ := hop t (w (Fin.last m)) y
      refine ⟨{ y with q := (Hmc.transition cfg.nLeapfrogs
          (logFn (fun q c => logPrior c (q c)) (fun q c => logJoint c (q c)) t)
          (fun q c => g t c (q c)) (fun _ => 1) y.stepSize y.q (w (Fin.last m)).1 (w (Fin.last m)).2).newQ },
        ?_, ?_⟩
      · simp only [adaptLoop, hy, hi]
      · exact hye
  obtain ⟨y, hy, hye⟩ := hadapt (scheduleT (k + 1) (if 1 < k + 1 then 2 else 1)) { s with q := draw1 } nAdapt
    adaptNoise
  -- the main loop, chain by chain
  have hloop : ∀ (q : C → ι → ℝ) (w : Fin (k + 1) → (C → ι → ℝ) × (C → ℝ)) (c : C),
      ∃ lw'', (annealLoop op (k + 1) ({ y with q := q }, fun c => -logFn (fun q c => logPrior c (q c))
        (fun q c => logJoint c (q c)) 0 q c) (k + 1) w).map Prod.snd = some lw'' ∧
      lw'' c = wt (l c) (step c) (q c) k (fun i => ((w i.castSucc).1 c, (w i.castSucc).2 c)) +
        logJoint c (path (step c) (q c) k (fun i => ((w i.castSucc).1 c, (w i.castSucc).2 c))) := by
    intro q w c
    obtain ⟨z, lw', lw'', _, _, g3, g4, g5, g6⟩ := annealLoop_chain op (k + 1) c
      (fun x : Hmc.State ℝ C ι => x.q c) (fun w => (w.1 c, w.2 c)) (step c) (l c)
      (fun x => x.stepSize = s.stepSize) (by
        intro j x w hx
        obtain ⟨info, hi, ho, hn⟩ := hop (scheduleT (k + 1) ((j : ℕ) : ℝ)) w x
        refine ⟨_, _, _, hi, hx, ?_, ho c, hn c⟩
        simp only [hstep, annealMove]
        rw [← hx]
        exact Hmc.transition_chain cfg.nLeapfrogs (fun _ => 1) x.stepSize (fun c => l c j)
          (fun c => g (scheduleT (k + 1) j) c) x.q w.1 w.2 c)
      { y with q := q } hye (fun c => -logFn (fun q c => logPrior c (q c)) (fun q c => logJoint c (q c)) 0 q c)
      (by simp only [e0, logFn]; ring) k (by omega) w
    refine ⟨lw'', g5, ?_⟩
    rw [g6 rfl, g4, g3, e1]
  simp only [logWeights, if_neg (Nat.succ_ne_zero k), hy]
  cases hm : (annealLoop op (k + 1) ({ y with q := q }, fun c => -logFn (fun q c => logPrior c (q c))
      (fun q c => logJoint c (q c)) 0 q c) (k + 1) w).map Prod.snd with
  | none =>
    obtain ⟨lw, hlw, _⟩ := hloop q w (Classical.arbitrary C)
    rw [hm] at hlw
    exact absurd hlw (by simp)
  | some lw =>
    refine congrArg some (funext fun c => ?_)
    obtain ⟨lw2, hlw, hc⟩ := hloop q w c
    rw [hm, Option.some.injEq] at hlw
    rw [hlw, hc]
    rfl

/-- The draws of one chain have the law of one chain. -/
theorem oneChain_law (logPrior : C → (ι → ℝ) → ℝ)
    (hnorm : ∀ c, ∫⁻ q, ENNReal.ofReal (Real.exp (logPrior c q)) = 1) (n : ℕ) (c : C) :
    MeasurePreserving (oneChain c)
      ((Measure.pi fun c => volume.withDensity fun q => ENNReal.ofReal (Real.exp (logPrior c q))).prod
        (Measure.pi fun _ : Fin n => (Measure.pi fun _ : C => Measure.pi fun _ : ι => gaussianReal 0 1).prod
          (Measure.pi fun _ => volume.restrict (Ico 0 1))))
      (chainLaw (logPrior c) n) := by
  have hprob : ∀ c, IsProbabilityMeasure (volume.withDensity fun q => ENNReal.ofReal (Real.exp (logPrior c q))) :=
    fun c => ⟨by rw [withDensity_apply _ MeasurableSet.univ, Measure.restrict_univ, hnorm c]⟩
  have hun : IsProbabilityMeasure (volume.restrict (Ico (0 : ℝ) 1)) := ⟨by simp⟩
  have m1 := measurePreserving_eval
    (fun c => volume.withDensity fun q : ι → ℝ => ENNReal.ofReal (Real.exp (logPrior c q))) c
  have m2 := measurePreserving_eval (fun _ : C => Measure.pi fun _ : ι => gaussianReal 0 1) c
  have m3 := measurePreserving_eval (fun _ : C => volume.restrict (Ico (0 : ℝ) 1)) c
  exact m1.prod (measurePreserving_pi (fun _ : Fin n => (Measure.pi fun _ : C => Measure.pi fun _ : ι =>
    gaussianReal 0 1).prod (Measure.pi fun _ => volume.restrict (Ico 0 1))) _ (fun _ => m2.prod m3))

/-- C48.  AIS with the library's HMC without adaptation: for each chain, the expectation of the exponential
of the log weight computed by `run` is the integral of `exp log_joint`, the marginal likelihood.  The
proposal is normalised and its draws for different chains are independent.  The first draw, the variables at
the start and the noise of the adaptation phase are arbitrary. -/
theorem C48_hmc [Nonempty C] (cfg : Hmc.Cfg ℝ) (h1 : cfg.adaptsStep = false) (h2 : cfg.adaptsMass = false) (feed : Hmc.Feed)
    (logPrior logJoint : C → (ι → ℝ) → ℝ) (hp : ∀ c, Measurable (logPrior c)) (hj : ∀ c, Measurable (logJoint c))
    (hnorm : ∀ c, ∫⁻ q, ENNReal.ofReal (Real.exp (logPrior c q)) = 1)
    (g : ℝ → C → (ι → ℝ) → ι → ℝ) (hg : ∀ t c, Measurable (g t c)) (n nAdapt : ℕ) (hn : n ≠ 0)
    (s : Hmc.State ℝ C ι) (draw1 : C → ι → ℝ) (adaptNoise : Fin nAdapt → (C → ι → ℝ) × (C → ℝ)) :
    let op := hmcOp cfg feed (fun q c => logPrior c (q c)) (fun q c => logJoint c (q c))
      (fun t q c => g t c (q c))
    let proposal : Measure (C → ι → ℝ) :=
      Measure.pi fun c => volume.withDensity fun q => ENNReal.ofReal (Real.exp (logPrior c q))
    let noise : Measure ((C → ι → ℝ) × (C → ℝ)) := (Measure.pi fun _ => Measure.pi fun _ => gaussianReal 0 1).prod
      (Measure.pi fun _ => volume.restrict (Ico 0 1))
    ∃ W : (C → ι → ℝ) × (Fin n → (C → ι → ℝ) × (C → ℝ)) → C → ℝ, (∀ c, Measurable fun p => W p c) ∧
      (∀ q w, logWeights op (fun q s => { s with q := q })
        (fun s c => logFn (fun q c => logPrior c (q c)) (fun q c => logJoint c (q c)) 0 s.q c)
        n nAdapt s draw1 q adaptNoise w = some (W (q, w))) ∧
      ∀ c, ∫⁻ p, ENNReal.ofReal (Real.exp (W p c)) ∂(proposal.prod (Measure.pi fun _ => noise)) =
        ∫⁻ q, ENNReal.ofReal (Real.exp (logJoint c q)) := by
  intro op proposal noise
  obtain ⟨k, rfl⟩ := Nat.exists_eq_succ_of_ne_zero hn
  have mpr := oneChain_law logPrior hnorm (k + 1)
  have mw := fun c => measurable_chainWeight cfg.nLeapfrogs s.stepSize (hp c) (hj c) (g := fun t => g t c)
    (fun t => hg t c) k
  refine ⟨fun p c => chainWeight cfg.nLeapfrogs s.stepSize (logPrior c) (logJoint c) (fun t => g t c) k
    (oneChain c p), fun c => (mw c).comp (mpr c).measurable,
    fun q w => hmc_weights cfg h1 h2 feed logPrior logJoint g k nAdapt s draw1 adaptNoise q w, fun c => ?_⟩
  rw [← chainWeight_mean cfg.nLeapfrogs s.stepSize (hp c) (hj c) (g := fun t => g t c) (fun t => hg t c) k,
    ← (mpr c).lintegral_comp (measurable_expOf (mw c))]

/-- A normalised proposal as in `C48_hmc`: independent standard normals. -/
example : ∫⁻ q : ι → ℝ, ENNReal.ofReal (Real.exp (∑ i, Real.log (gaussianPDFReal 0 1 (q i)))) = 1 := by
  have e : ∀ q : ι → ℝ, ENNReal.ofReal (Real.exp (∑ i, Real.log (gaussianPDFReal 0 1 (q i)))) =
      ∏ i, gaussianPDF 0 1 (q i) := by
    intro q
    rw [Real.exp_sum, ENNReal.ofReal_prod_of_nonneg fun i _ => (Real.exp_pos _).le]
    refine Finset.prod_congr rfl fun i _ => ?_
    rw [Real.exp_log (gaussianPDFReal_pos 0 1 _ one_ne_zero), gaussianPDF]
  simp only [e]
  have h := Meas.lintegral_pi_prod (fun _ : ι => (volume : Measure ℝ)) (fun _ => gaussianPDF 0 1)
    (fun _ => measurable_gaussianPDF 0 1)
  refine h.trans ?_
  simp [lintegral_gaussianPDF_eq_one 0 one_ne_zero]

/-! ## C49 -/

section
variable {K D : Type} [Fintype K] [Nonempty K] [Fintype D]

/-- The shift by the maximum does not matter. -/
theorem lowerBound_eq (lw : K → D → ℝ) (d : D) :
    lowerBound lw d = Real.log ((∑ k, Real.exp (lw k d)) / Fintype.card K) := by
  simp only [lowerBound]
  set m := Finset.univ.sup' Finset.univ_nonempty fun k => lw k d
  have hc : (0 : ℝ) < Fintype.card K := by exact_mod_cast Fintype.card_pos
  have hpos : 0 < ∑ k, Real.exp (lw k d) := Finset.sum_pos (fun k _ => Real.exp_pos _) Finset.univ_nonempty
  have e : ∑ k, Real.exp (lw k d - m) = (∑ k, Real.exp (lw k d)) * Real.exp (-m) := by
    rw [Finset.sum_mul]
    exact Finset.sum_congr rfl fun k _ => by rw [← Real.exp_add, sub_eq_add_neg]
  rw [e, mul_div_right_comm, Real.log_mul (by positivity) (Real.exp_pos _).ne', Real.log_exp]
  ring

/-- C49.  The result is exact when all weights equal the marginal likelihood. -/
theorem C49_exact (lw : K → D → ℝ) (logZ : D → ℝ) (h : ∀ k d, lw k d = logZ d) :
    result lw = (∑ d, logZ d) / Fintype.card D := by
  have hc : (Fintype.card K : ℝ) ≠ 0 := by exact_mod_cast Fintype.card_ne_zero
  simp only [result, lowerBound_eq, h]
  congr 1
  refine Finset.sum_congr rfl fun d _ => ?_
  simp [hc]

variable {Ω : Type} [MeasurableSpace Ω] (P : Measure Ω) [IsProbabilityMeasure P]

/-- The mean weight over chains, as a fraction of the marginal likelihood. -/
noncomputable def ratio (lw : K → D → ℝ) (logZ : D → ℝ) (d : D) : ℝ :=
  (∑ k, Real.exp (lw k d - logZ d)) / Fintype.card K

theorem ratio_pos (lw : K → D → ℝ) (logZ : D → ℝ) (d : D) : 0 < ratio lw logZ d :=
  div_pos (Finset.sum_pos (fun k _ => Real.exp_pos _) Finset.univ_nonempty)
    (by exact_mod_cast Fintype.card_pos)

theorem lowerBound_ratio (lw : K → D → ℝ) (logZ : D → ℝ) (d : D) :
    lowerBound lw d = logZ d + Real.log (ratio lw logZ d) := by
  have hc : (0 : ℝ) < Fintype.card K := by exact_mod_cast Fintype.card_pos
  have hpos : 0 < ∑ k, Real.exp (lw k d) := Finset.sum_pos (fun k _ => Real.exp_pos _) Finset.univ_nonempty
  have e : ∑ k, Real.exp (lw k d - logZ d) = (∑ k, Real.exp (lw k d)) * Real.exp (-logZ d) := by
    rw [Finset.sum_mul]
    exact Finset.sum_congr rfl fun k _ => by rw [← Real.exp_add, sub_eq_add_neg]
  rw [lowerBound_eq, ratio, e, mul_div_right_comm, Real.log_mul (by positivity) (Real.exp_pos _).ne',
    Real.log_exp]
  ring

theorem lintegral_ratio (lw : Ω → K → D → ℝ) (hm : ∀ k d, Measurable fun ω => lw ω k d) (logZ : D → ℝ)
    (hZ : ∀ k d, ∫⁻ ω, ENNReal.ofReal (Real.exp (lw ω k d)) ∂P = ENNReal.ofReal (Real.exp (logZ d))) (d : D) :
    ∫⁻ ω, ENNReal.ofReal (ratio (lw ω) logZ d) ∂P = 1 := by
  have hc : (0 : ℝ) < Fintype.card K := by exact_mod_cast Fintype.card_pos
  have e : ∀ ω, ENNReal.ofReal (ratio (lw ω) logZ d) =
      ∑ k, ENNReal.ofReal (Real.exp (lw ω k d)) *
        ENNReal.ofReal (Real.exp (-logZ d) / Fintype.card K) := by
    intro ω
    rw [ratio, Finset.sum_div, ENNReal.ofReal_sum_of_nonneg fun k _ => by positivity]
    refine Finset.sum_congr rfl fun k _ => ?_
    rw [← ENNReal.ofReal_mul (Real.exp_pos _).le, sub_eq_add_neg, Real.exp_add, mul_div_assoc]
  have mk : ∀ k, Measurable fun ω => ENNReal.ofReal (Real.exp (lw ω k d)) := fun k => measurable_expOf (hm k d)
  simp only [e]
  rw [lintegral_finsetSum _ fun k _ => (mk k).mul_const _]
  simp only [lintegral_mul_const _ (mk _), hZ]
  rw [Finset.sum_const, ← ENNReal.ofReal_mul (Real.exp_pos _).le, Finset.card_univ, nsmul_eq_mul,
    ← ENNReal.ofReal_natCast, ← ENNReal.ofReal_mul hc.le, mul_div_assoc', ← Real.exp_add]
  simp only [add_neg_cancel, Real.exp_zero]
  rw [mul_one_div_cancel hc.ne', ENNReal.ofReal_one]

theorem integrable_ratio (lw : Ω → K → D → ℝ) (hm : ∀ k d, Measurable fun ω => lw ω k d) (logZ : D → ℝ)
    (hZ : ∀ k d, ∫⁻ ω, ENNReal.ofReal (Real.exp (lw ω k d)) ∂P = ENNReal.ofReal (Real.exp (logZ d))) (d : D) :
    Integrable (fun ω => ratio (lw ω) logZ d) P ∧ ∫ ω, ratio (lw ω) logZ d ∂P = 1 := by
  have h1 := lintegral_ratio P lw hm logZ hZ d
  have h0 : 0 ≤ᵐ[P] fun ω => ratio (lw ω) logZ d := Filter.Eventually.of_forall fun ω => (ratio_pos _ _ _).le
  have hmeas : Measurable fun ω => ratio (lw ω) logZ d :=
    (Finset.measurable_sum _ fun k _ => Real.measurable_exp.comp ((hm k d).sub_const _)).div_const _
  refine ⟨⟨hmeas.aestronglyMeasurable, ?_⟩, ?_⟩
  · rw [hasFiniteIntegral_iff_ofReal h0, h1]
    exact ENNReal.one_lt_top
  · rw [integral_eq_lintegral_of_nonneg_ae h0 hmeas.aestronglyMeasurable, h1, ENNReal.toReal_one]

/-- C49.  If every weight has the marginal likelihood as its expectation (C48), the result has at most the
mean log marginal likelihood as its expectation.  The chains need not be independent. -/
theorem C49_lower_bound (lw : Ω → K → D → ℝ) (hm : ∀ k d, Measurable fun ω => lw ω k d) (logZ : D → ℝ)
    (hZ : ∀ k d, ∫⁻ ω, ENNReal.ofReal (Real.exp (lw ω k d)) ∂P = ENNReal.ofReal (Real.exp (logZ d)))
    (hint : Integrable (fun ω => result (lw ω)) P) :
    ∫ ω, result (lw ω) ∂P ≤ (∑ d, logZ d) / Fintype.card D := by
  have hr := integrable_ratio P lw hm logZ hZ
  have hle : ∀ ω, result (lw ω) ≤ (∑ d, (logZ d + (ratio (lw ω) logZ d - 1))) / Fintype.card D := by
    intro ω
    simp only [result]
    gcongr with d
    rw [lowerBound_ratio (lw ω) logZ]
    have := Real.log_le_sub_one_of_pos (ratio_pos (lw ω) logZ d)
    linarith
  have hi : ∀ d, Integrable (fun ω => logZ d + (ratio (lw ω) logZ d - 1)) P := fun d =>
    (integrable_const _).add ((hr d).1.sub (integrable_const _))
  have hi2 : Integrable (fun ω => (∑ d, (logZ d + (ratio (lw ω) logZ d - 1))) / Fintype.card D) P :=
    (integrable_finset_sum _ fun d _ => hi d).div_const _
  refine (integral_mono hint hi2 hle).trans (le_of_eq ?_)
  rw [integral_div, integral_finset_sum _ fun d _ => hi d]
  congr 1
  refine Finset.sum_congr rfl fun d _ => ?_
  have h1 : Integrable (fun ω => ratio (lw ω) logZ d - 1) P := (hr d).1.sub (integrable_const _)
  rw [integral_add (integrable_const _) h1, integral_sub (hr d).1 (integrable_const _), (hr d).2]
  simp

/-- C49.  The expectation in `C49_lower_bound` can only fail to exist by being `-∞`. -/
theorem C49_above (lw : Ω → K → D → ℝ) (hm : ∀ k d, Measurable fun ω => lw ω k d) (logZ : D → ℝ)
    (hZ : ∀ k d, ∫⁻ ω, ENNReal.ofReal (Real.exp (lw ω k d)) ∂P = ENNReal.ofReal (Real.exp (logZ d))) :
    ∫⁻ ω, ENNReal.ofReal (result (lw ω)) ∂P < ∞ := by
  have hr := integrable_ratio P lw hm logZ hZ
  have hi : Integrable (fun ω => (∑ d, (logZ d + (ratio (lw ω) logZ d - 1))) / Fintype.card D) P :=
    (integrable_finset_sum _ fun d _ =>
      (integrable_const (logZ d)).add ((hr d).1.sub (integrable_const 1))).div_const _
  refine lt_of_le_of_lt (lintegral_mono fun ω => ?_) hi.2
  have hle : result (lw ω) ≤ (∑ d, (logZ d + (ratio (lw ω) logZ d - 1))) / Fintype.card D := by
    simp only [result]
    gcongr with d
    rw [lowerBound_ratio (lw ω) logZ]
    have := Real.log_le_sub_one_of_pos (ratio_pos (lw ω) logZ d)
    linarith
  refine (ENNReal.ofReal_le_ofReal (hle.trans (le_abs_self _))).trans (le_of_eq ?_)
  exact (Real.enorm_eq_ofReal_abs _).symm

/-- C49.  A stochastic lower bound: the value for one data point exceeds its log marginal likelihood by `b`
with probability at most `exp (-b)`. -/
theorem C49_tail (lw : Ω → K → D → ℝ) (hm : ∀ k d, Measurable fun ω => lw ω k d) (logZ : D → ℝ)
    (hZ : ∀ k d, ∫⁻ ω, ENNReal.ofReal (Real.exp (lw ω k d)) ∂P = ENNReal.ofReal (Real.exp (logZ d)))
    (d : D) (b : ℝ) : P {ω | logZ d + b ≤ lowerBound (lw ω) d} ≤ ENNReal.ofReal (Real.exp (-b)) := by
  have hmeas : Measurable fun ω => ENNReal.ofReal (ratio (lw ω) logZ d) :=
    ((Finset.measurable_sum _ fun k _ => Real.measurable_exp.comp ((hm k d).sub_const _)).div_const _).ennreal_ofReal
  have h := mul_meas_ge_le_lintegral₀ (μ := P) hmeas.aemeasurable (ENNReal.ofReal (Real.exp b))
  rw [lintegral_ratio P lw hm logZ hZ d] at h
  have hset : {ω | logZ d + b ≤ lowerBound (lw ω) d} ⊆
      {ω | ENNReal.ofReal (Real.exp b) ≤ ENNReal.ofReal (ratio (lw ω) logZ d)} := by
    intro ω hω
    simp only [mem_setOf_eq, lowerBound_ratio (lw ω) logZ] at hω ⊢
    refine ENNReal.ofReal_le_ofReal ?_
    rw [← Real.exp_log (ratio_pos (lw ω) logZ d)]
    exact Real.exp_le_exp.2 (by linarith)
  refine (measure_mono hset).trans ?_
  rw [Real.exp_neg, ENNReal.ofReal_inv_of_pos (Real.exp_pos _)]
  exact (ENNReal.le_inv_iff_mul_le).2 (by rwa [mul_comm])

end

/-- C49.  The two together: AIS with HMC without adaptation returns a stochastic lower bound of the mean log
marginal likelihood of the data points, for every number of chains. -/
theorem C49_hmc {K D : Type} [Fintype K] [Nonempty K] [Fintype D] [Nonempty D]
    (cfg : Hmc.Cfg ℝ) (h1 : cfg.adaptsStep = false) (h2 : cfg.adaptsMass = false) (feed : Hmc.Feed)
    (logPrior logJoint : D → (ι → ℝ) → ℝ) (hp : ∀ d, Measurable (logPrior d)) (hj : ∀ d, Measurable (logJoint d))
    (hnorm : ∀ d, ∫⁻ q, ENNReal.ofReal (Real.exp (logPrior d q)) = 1) (logZ : D → ℝ)
    (hZ : ∀ d, ∫⁻ q, ENNReal.ofReal (Real.exp (logJoint d q)) = ENNReal.ofReal (Real.exp (logZ d)))
    (g : ℝ → D → (ι → ℝ) → ι → ℝ) (hg : ∀ t d, Measurable (g t d)) (n nAdapt : ℕ) (hn : n ≠ 0)
    (s : Hmc.State ℝ (K × D) ι) (draw1 : K × D → ι → ℝ)
    (adaptNoise : Fin nAdapt → (K × D → ι → ℝ) × (K × D → ℝ)) :
    let op := hmcOp cfg feed (fun q (c : K × D) => logPrior c.2 (q c)) (fun q c => logJoint c.2 (q c))
      (fun t q c => g t c.2 (q c))
    let P : Measure ((K × D → ι → ℝ) × (Fin n → (K × D → ι → ℝ) × (K × D → ℝ))) :=
      (Measure.pi fun c => volume.withDensity fun q => ENNReal.ofReal (Real.exp (logPrior c.2 q))).prod
      (Measure.pi fun _ => (Measure.pi fun _ => Measure.pi fun _ => gaussianReal 0 1).prod
        (Measure.pi fun _ => volume.restrict (Ico 0 1)))
    ∃ R : (K × D → ι → ℝ) × (Fin n → (K × D → ι → ℝ) × (K × D → ℝ)) → ℝ,
      (∀ q w, (logWeights op (fun q s => { s with q := q })
        (fun s c => logFn (fun q (c : K × D) => logPrior c.2 (q c)) (fun q c => logJoint c.2 (q c)) 0 s.q c)
        n nAdapt s draw1 q adaptNoise w).map (fun lw => result fun k d => lw (k, d)) = some (R (q, w))) ∧
      ∫⁻ p, ENNReal.ofReal (R p) ∂P < ∞ ∧
      (Integrable R P → ∫ p, R p ∂P ≤ (∑ d, logZ d) / Fintype.card D) := by
  intro op P
  obtain ⟨W, mW, hW, hE⟩ := C48_hmc cfg h1 h2 feed (fun c : K × D => logPrior c.2) (fun c => logJoint c.2)
    (fun c => hp c.2) (fun c => hj c.2) (fun c => hnorm c.2) (fun t c => g t c.2) (fun t c => hg t c.2)
    n nAdapt hn s draw1 adaptNoise
  have hprob : ∀ c : K × D, IsProbabilityMeasure
      (volume.withDensity fun q => ENNReal.ofReal (Real.exp (logPrior c.2 q))) :=
    fun c => ⟨by rw [withDensity_apply _ MeasurableSet.univ, Measure.restrict_univ, hnorm c.2]⟩
  have hun : IsProbabilityMeasure (volume.restrict (Ico (0 : ℝ) 1)) := ⟨by simp⟩
  have hP : IsProbabilityMeasure P := by
    simp only [P]
    infer_instance
  have hE' : ∀ (k : K) (d : D), ∫⁻ p, ENNReal.ofReal (Real.exp (W p (k, d))) ∂P =
      ENNReal.ofReal (Real.exp (logZ d)) := fun k d => (hE (k, d)).trans (hZ d)
  refine ⟨fun p => result fun k d => W p (k, d), fun q w => ?_,
    C49_above P (fun p k d => W p (k, d)) (fun k d => mW (k, d)) logZ hE',
    C49_lower_bound P (fun p k d => W p (k, d)) (fun k d => mW (k, d)) logZ hE'⟩
  rw [hW q w]
  rfl

end ZhuSuan.Ais
