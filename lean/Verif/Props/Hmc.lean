import Verif.Lemmas.HmcInvariant

/-!
# C50, C52, C53  The HMC transition

`transition` is the leapfrog integration and the Metropolis–Hastings test of one iteration; `sample` is the
whole iteration.  The gradient is an arbitrary function: neither reversibility nor invariance needs it to
be the gradient of the log density.
-/

set_option autoImplicit false

open MeasureTheory Set ProbabilityTheory
open scoped ENNReal

namespace ZhuSuan.Hmc

variable {C ι : Type} [Fintype C] [Fintype ι]

/-! ## C50 -/

omit [Fintype C] [Fintype ι] in
/-- C50.  Integrate, reverse the momentum, integrate, reverse: back at the start. -/
theorem C50_reversible (mass : ι → ℝ) (grad : (C → ι → ℝ) → C → ι → ℝ) (n : ℕ) (eps : ℝ)
    (q p q' p' q'' p'' : C → ι → ℝ) (h : leapfrog mass grad n eps (q, p) = (q', p'))
    (h' : leapfrog mass grad n eps (q', -p') = (q'', p'')) : q'' = q ∧ -p'' = p := by
  have e := leapfrog_neg mass grad n eps (q, p)
  rw [h] at e
  have e2 : leapfrog mass grad n eps (q', -p') = (q, -p) := e
  rw [h', Prod.mk.injEq] at e2
  exact ⟨e2.1, by rw [e2.2, neg_neg]⟩

/-- C50.  The integrator preserves Lebesgue measure on positions and momenta of all chains. -/
theorem C50_volume (mass : ι → ℝ) (grad : (C → ι → ℝ) → C → ι → ℝ) (hg : Measurable grad) (n : ℕ) (eps : ℝ)
    (A : Set ((C → ι → ℝ) × (C → ι → ℝ))) (hA : MeasurableSet A) :
    (volume : Measure ((C → ι → ℝ) × (C → ι → ℝ))) (leapfrog mass grad n eps ⁻¹' A) = volume A :=
  (measurePreserving_leapfrog mass grad hg n eps).measure_preimage hA.nullMeasurableSet

omit [Fintype C] [Fintype ι] in
/-- C50.  What the loop computes for at least one leapfrog step: half a kick, then alternating drifts and
kicks, then half a kick. -/
theorem C50_scheme (mass : ι → ℝ) (grad : (C → ι → ℝ) → C → ι → ℝ) (n : ℕ) (eps : ℝ)
    (x : (C → ι → ℝ) × (C → ι → ℝ)) :
    let K : ℝ → (C → ι → ℝ) × (C → ι → ℝ) → (C → ι → ℝ) × (C → ι → ℝ) := fun s x =>
      (x.1, x.2 + s • grad x.1)
    let D : (C → ι → ℝ) × (C → ι → ℝ) → (C → ι → ℝ) × (C → ι → ℝ) := fun x =>
      (x.1 + eps • fun c i => x.2 c i / mass i, x.2)
    leapfrog mass grad (n + 1) eps x = K (eps / 2) (D ((fun y => K eps (D y))^[n] (K (eps / 2) x))) :=
  leapfrog_succ mass grad n eps x

/-! ## C53 -/

section
omit [Fintype C]
variable (n : ℕ) (mass : ι → ℝ) (eps : ℝ) (logPost : (C → ι → ℝ) → C → ℝ)
  (grad : (C → ι → ℝ) → C → ι → ℝ) (q p : C → ι → ℝ) (u : C → ℝ) (c : C)

theorem newQ_pos (h : u c < ((transition n logPost grad mass eps q p u).mh c).rate) :
    (transition n logPost grad mass eps q p u).newQ c = (leapfrog mass grad n eps (q, p)).1 c :=
  funext fun _ => if_pos h

theorem newQ_neg (h : ¬u c < ((transition n logPost grad mass eps q p u).mh c).rate) :
    (transition n logPost grad mass eps q p u).newQ c = q c :=
  funext fun _ => if_neg h

theorem logProb_pos (h : u c < ((transition n logPost grad mass eps q p u).mh c).rate) :
    (transition n logPost grad mass eps q p u).logProb c =
      ((transition n logPost grad mass eps q p u).mh c).newLogProb := if_pos h

theorem logProb_neg (h : ¬u c < ((transition n logPost grad mass eps q p u).mh c).rate) :
    (transition n logPost grad mass eps q p u).logProb c =
      ((transition n logPost grad mass eps q p u).mh c).oldLogProb := if_neg h

theorem allFinite (f : C → ℝ) : ∀ c, Flt.isFinite (f c) := fun _ => trivial

end

/-- C53.  A chain's new state, acceptance rate and log density depend on that chain's state, momentum and
uniform draw, and on the shared step size and mass, only: two runs with possibly different numbers of
chains that agree on these agree on the results. -/
theorem C53_chain_local {D : Type} [Fintype D] (n : ℕ) (mass : ι → ℝ) (eps : ℝ)
    (l : (ι → ℝ) → ℝ) (g : (ι → ℝ) → ι → ℝ)
    (logPost : (C → ι → ℝ) → C → ℝ) (grad : (C → ι → ℝ) → C → ι → ℝ) (c : C)
    (hl : ∀ q, logPost q c = l (q c)) (hg : ∀ q, grad q c = g (q c))
    (logPost' : (D → ι → ℝ) → D → ℝ) (grad' : (D → ι → ℝ) → D → ι → ℝ) (d : D)
    (hl' : ∀ q, logPost' q d = l (q d)) (hg' : ∀ q, grad' q d = g (q d))
    (q p : C → ι → ℝ) (u : C → ℝ) (q' p' : D → ι → ℝ) (u' : D → ℝ)
    (hq : q c = q' d) (hp : p c = p' d) (hu : u c = u' d) :
    (transition n logPost grad mass eps q p u).newQ c =
      (transition n logPost' grad' mass eps q' p' u').newQ d ∧
    (transition n logPost grad mass eps q p u).mh c =
      (transition n logPost' grad' mass eps q' p' u').mh d ∧
    (transition n logPost grad mass eps q p u).logProb c =
      (transition n logPost' grad' mass eps q' p' u').logProb d := by
  obtain ⟨h1, h2⟩ := leapfrog_chain mass grad n eps c d grad' g hg hg' (q, p) (q', p') hq hp
  have e : (transition n logPost grad mass eps q p u).mh c =
      (transition n logPost' grad' mass eps q' p' u').mh d := by
    simp only [transition, hl, hl', h1, h2, hq, hp]
  by_cases h : u c < ((transition n logPost grad mass eps q p u).mh c).rate
  · have h' : u' d < ((transition n logPost' grad' mass eps q' p' u').mh d).rate := by
      rw [← e, ← hu]; exact h
    rw [newQ_pos _ _ _ _ _ _ _ _ _ h, newQ_pos _ _ _ _ _ _ _ _ _ h', logProb_pos _ _ _ _ _ _ _ _ _ h,
      logProb_pos _ _ _ _ _ _ _ _ _ h', e]
    exact ⟨h1, rfl, rfl⟩
  · have h' : ¬u' d < ((transition n logPost' grad' mass eps q' p' u').mh d).rate := by
      rw [← e, ← hu]; exact h
    rw [newQ_neg _ _ _ _ _ _ _ _ _ h, newQ_neg _ _ _ _ _ _ _ _ _ h', logProb_neg _ _ _ _ _ _ _ _ _ h,
      logProb_neg _ _ _ _ _ _ _ _ _ h', e]
    exact ⟨hq, rfl, rfl⟩

omit [Fintype C] in
/-- C53.  A chain moves to the end of the trajectory if its draw is below its rate, else it stays; the log
density reported is that of the new state. -/
theorem C53_accept (n : ℕ) (mass : ι → ℝ) (eps : ℝ) (logPost : (C → ι → ℝ) → C → ℝ)
    (grad : (C → ι → ℝ) → C → ι → ℝ) (q p : C → ι → ℝ) (u : C → ℝ) (c : C)
    (hl : ∃ l : (ι → ℝ) → ℝ, ∀ q, logPost q c = l (q c)) :
    let r := transition n logPost grad mass eps q p u
    (u c < (r.mh c).rate → r.newQ c = (leapfrog mass grad n eps (q, p)).1 c) ∧
    (¬u c < (r.mh c).rate → r.newQ c = q c) ∧
    r.logProb c = logPost r.newQ c ∧ (r.mh c).oldLogProb = logPost q c := by
  obtain ⟨l, hl⟩ := hl
  intro r
  have e1 : u c < (r.mh c).rate → r.newQ c = (leapfrog mass grad n eps (q, p)).1 c :=
    newQ_pos n mass eps logPost grad q p u c
  have e2 : ¬u c < (r.mh c).rate → r.newQ c = q c := newQ_neg n mass eps logPost grad q p u c
  refine ⟨e1, e2, ?_, ?_⟩
  · by_cases h : u c < (r.mh c).rate
    · rw [hl, e1 h, ← hl]
      have : r.logProb c = (r.mh c).newLogProb := if_pos h
      rw [this]
      simp [r, transition, getAcceptanceRate, hamiltonian]
    · rw [hl, e2 h, ← hl]
      have : r.logProb c = (r.mh c).oldLogProb := if_neg h
      rw [this]
      simp [r, transition, getAcceptanceRate, hamiltonian]
  · simp [r, transition, getAcceptanceRate, hamiltonian]

/-- C53.  What a whole iteration reports: the samples are the variables after the update, the log densities
are those of the states before and after it. -/
theorem C53_outputs (cfg : Cfg ℝ) (logPost : (C → ι → ℝ) → C → ℝ) (grad : (C → ι → ℝ) → C → ι → ℝ)
    (hl : ∀ c, ∃ l : (ι → ℝ) → ℝ, ∀ q, logPost q c = l (q c)) (feed : Feed) (z : C → ι → ℝ) (u : C → ℝ)
    (s s' : State ℝ C ι) (info : Info ℝ C ι) (h : sample cfg logPost grad feed z u s = .ok s' info) :
    info.samples = s'.q ∧ info.updatedStepSize = s'.stepSize ∧
    (∀ c, info.origLogProb c = logPost s.q c) ∧ (∀ c, info.logProb c = logPost s'.q c) ∧
    (∀ c, u c < info.acceptanceRate c ∨ s'.q c = s.q c) := by
  simp only [sample] at h
  split at h
  · exact absurd h (by simp)
  · rename_i eps heps
    rw [if_pos (allFinite _)] at h
    simp only [Outcome.ok.injEq] at h
    obtain ⟨rfl, rfl⟩ := h
    have ha := fun c => C53_accept cfg.nLeapfrogs (adaptMass cfg feed (s.t + 1) s.q s.ewmv).2 eps logPost grad
      s.q (randomMomentum z (adaptMass cfg feed (s.t + 1) s.q s.ewmv).2) u c (hl c)
    exact ⟨rfl, rfl, fun c => (ha c).2.2.2, fun c => (ha c).2.2.1, fun c =>
      (em _).imp id fun hc => (ha c).2.1 hc⟩

omit [Fintype C] in
theorem rate_eq (n : ℕ) (mass : ι → ℝ) (eps : ℝ) (logPost : (C → ι → ℝ) → C → ℝ)
    (grad : (C → ι → ℝ) → C → ι → ℝ) (q p : C → ι → ℝ) (u : C → ℝ) (c : C) :
    let m := (transition n logPost grad mass eps q p u).mh c
    m.rate = Real.exp (min (m.oldH - m.newH) 0) := by
  simp [transition, getAcceptanceRate, acceptanceRate, neg_add_eq_sub]

/-- C53, finding.  `HMCInfo.hamiltonian` is documented as the Hamiltonian at the end of the iteration, but
it is that of the proposal: whenever a chain rejects, its state stays the same and the reported value is
strictly larger than the Hamiltonian at the start. -/
theorem C53_hamiltonian_of_proposal (cfg : Cfg ℝ) (logPost : (C → ι → ℝ) → C → ℝ)
    (grad : (C → ι → ℝ) → C → ι → ℝ) (hl : ∀ c, ∃ l : (ι → ℝ) → ℝ, ∀ q, logPost q c = l (q c))
    (feed : Feed) (z : C → ι → ℝ) (u : C → ℝ)
    (s s' : State ℝ C ι) (info : Info ℝ C ι) (h : sample cfg logPost grad feed z u s = .ok s' info)
    (c : C) (hu : u c < 1) (hrej : ¬u c < info.acceptanceRate c) :
    s'.q c = s.q c ∧ info.origHamiltonian c < info.hamiltonian c := by
  refine ⟨((C53_outputs cfg logPost grad hl feed z u s s' info h).2.2.2.2 c).resolve_left hrej, ?_⟩
  simp only [sample] at h
  split at h
  · exact absurd h (by simp)
  · rename_i eps heps
    rw [if_pos (allFinite _)] at h
    simp only [Outcome.ok.injEq] at h
    obtain ⟨rfl, rfl⟩ := h
    simp only at hrej ⊢
    have hr := rate_eq cfg.nLeapfrogs (adaptMass cfg feed (s.t + 1) s.q s.ewmv).2 eps logPost grad
      s.q (randomMomentum z (adaptMass cfg feed (s.t + 1) s.q s.ewmv).2) u c
    simp only at hr
    rw [hr] at hrej
    by_contra hcon
    rw [min_eq_right (by linarith), Real.exp_zero] at hrej
    exact hrej hu

/-- A concrete case: log density `q`, no leapfrog steps, momentum 1 and step size 2.  The momentum becomes 2,
so the energy rises from 1/2 to 2; a draw of 9/10 rejects. -/
example (s : State ℝ (Fin 1) (Fin 1)) (hs : s.stepSize = 2) (cfg : Cfg ℝ) (h0 : cfg.nLeapfrogs = 0)
    (h1 : cfg.adaptsStep = false) (h2 : cfg.adaptsMass = false) (feed : Feed) : ∃ s' info,
    sample cfg (fun q c => q c 0) (fun _ _ _ => 1) feed (fun _ _ => 1) (fun _ => 0.9) s = .ok s' info ∧
    ¬(0.9 : ℝ) < info.acceptanceRate 0 := by
  simp only [sample, usedStepSize, h1, Bool.false_eq_true, if_false]
  rw [if_pos (allFinite _)]
  refine ⟨_, _, rfl, ?_⟩
  simp only
  rw [rate_eq]
  simp [h0, hs, adaptMass, h2, transition, getAcceptanceRate, hamiltonian, leapfrog, leapfrogIntegrator,
    randomMomentum]
  norm_num
  have h := Real.add_one_le_exp (3 / 2 : ℝ)
  rw [Real.exp_neg]
  exact (inv_anti₀ (by norm_num) h).trans (by norm_num)

/-- C53.  With both adaptations absent, an iteration always finishes and is exactly one transition with the
given step size and unit mass. -/
theorem C53_fixed (cfg : Cfg ℝ) (h1 : cfg.adaptsStep = false) (h2 : cfg.adaptsMass = false)
    (logPost : (C → ι → ℝ) → C → ℝ) (grad : (C → ι → ℝ) → C → ι → ℝ) (feed : Feed) (z : C → ι → ℝ)
    (u : C → ℝ) (s : State ℝ C ι) : ∃ info,
    sample cfg logPost grad feed z u s =
      .ok { s with q := (transition cfg.nLeapfrogs logPost grad (fun _ => 1) s.stepSize s.q z u).newQ } info := by
  have ez : ∀ m : ι → ℝ, m = (fun _ => 1) → randomMomentum z m = z := by
    rintro m rfl
    funext c i
    simp [randomMomentum]
  have em : adaptMass cfg feed (s.t + 1) s.q s.ewmv = (s.ewmv, fun _ => 1) := by
    simp [adaptMass, h2]
  have eu : ∀ mass q p, usedStepSize cfg logPost grad (s.t + 1) mass q p s.stepSize = some s.stepSize := by
    intro mass q p
    simp [usedStepSize, h1]
  simp only [sample, em, ez, eu, h1, h2]
  rw [if_pos (allFinite _)]
  exact ⟨_, rfl⟩

/-! ## C52 -/

omit [Fintype C] in
theorem transition_chain (n : ℕ) (mass : ι → ℝ) (eps : ℝ) (l : C → (ι → ℝ) → ℝ)
    (g : C → (ι → ℝ) → ι → ℝ) (q p : C → ι → ℝ) (u : C → ℝ) (c : C) :
    (transition n (fun q c => l c (q c)) (fun q c => g c (q c)) mass eps q p u).newQ c =
      chainStep mass (g c) (l c) n eps (q c) (p c) (u c) := by
  obtain ⟨h1, h2⟩ := leapfrog_chain (D := Unit) mass (fun q c => g c (q c)) n eps c ()
    (fun q _ => g c (q ())) (g c) (fun q => rfl) (fun q => rfl) (q, p) (fun _ => q c, fun _ => p c) rfl rfl
  have hr : ((transition n (fun q c => l c (q c)) (fun q c => g c (q c)) mass eps q p u).mh c).rate =
      Real.exp (min (energy mass (l c) (q c, p c) -
        energy mass (l c) (leap1 mass (g c) n eps (q c, p c))) 0) := by
    rw [rate_eq]
    simp only [transition, getAcceptanceRate, hamiltonian, energy, leap1, flt_ofReal, flt_sum, h1, h2]
  by_cases h : u c < ((transition n (fun q c => l c (q c)) (fun q c => g c (q c)) mass eps q p u).mh c).rate
  · rw [newQ_pos _ _ _ _ _ _ _ _ _ h, chainStep, if_pos (hr ▸ h)]
    exact h1
  · rw [newQ_neg _ _ _ _ _ _ _ _ _ h, chainStep, if_neg (hr ▸ h)]

/-- C52.  HMC leaves its target invariant.  Each chain `c` has its own log density `l c`; the chains start
independently, chain `c` with density `exp (l c)` (not necessarily normalised or even integrable); the
normal and uniform draws are independent.  Then the chains after the transition are again independent with
the same densities.  This holds for every positive mass, step size and number of leapfrog steps. -/
theorem C52_invariant (n : ℕ) (mass : ι → ℝ) (hm : ∀ i, 0 < mass i) (eps : ℝ) (l : C → (ι → ℝ) → ℝ)
    (hl : ∀ c, Measurable (l c)) (g : C → (ι → ℝ) → ι → ℝ) (hg : ∀ c, Measurable (g c)) :
    let target : Measure (C → ι → ℝ) :=
      Measure.pi fun c => volume.withDensity fun q => ENNReal.ofReal (Real.exp (l c q))
    let normals : Measure (C → ι → ℝ) := Measure.pi fun _ => Measure.pi fun _ => gaussianReal 0 1
    let uniforms : Measure (C → ℝ) := Measure.pi fun _ => volume.restrict (Ico 0 1)
    (target.prod (normals.prod uniforms)).map (fun w =>
      (transition n (fun q c => l c (q c)) (fun q c => g c (q c)) mass eps w.1
        (randomMomentum w.2.1 mass) w.2.2).newQ) = target := by
  intro target normals uniforms
  have ht : target = Measure.pi fun c => Hmc.target (l c) := rfl
  have hu : uniforms = Measure.pi fun _ => unif := rfl
  set T : (c : C) → (ι → ℝ) × (ι → ℝ) × ℝ → ι → ℝ := fun c w =>
    chainStep mass (g c) (l c) n eps w.1 (fun i => w.2.1 i * Real.sqrt (mass i)) w.2.2 with hT
  have mT : ∀ c, Measurable (T c) := by
    intro c
    have mz : Measurable fun w : (ι → ℝ) × (ι → ℝ) × ℝ =>
        (w.1, (fun i => w.2.1 i * Real.sqrt (mass i) : ι → ℝ), w.2.2) := by fun_prop
    exact (measurable_chainStep mass (g c) (l c) n eps (hg c) (hl c)).comp mz
  -- regroup the draws by chain
  have h1 := measurePreserving_arrowProdEquivProdArrow (ι → ℝ) ℝ C
    (fun _ => Measure.pi fun _ : ι => gaussianReal 0 1) (fun _ => unif)
  have h2 := measurePreserving_arrowProdEquivProdArrow (ι → ℝ) ((ι → ℝ) × ℝ) C
    (fun c => Hmc.target (l c)) (fun _ => (Measure.pi fun _ : ι => gaussianReal 0 1).prod unif)
  have h3 := ((MeasurePreserving.id (Measure.pi fun c => Hmc.target (l c))).prod h1).comp h2
  have e : (fun w : (C → ι → ℝ) × (C → ι → ℝ) × (C → ℝ) =>
      (transition n (fun q c => l c (q c)) (fun q c => g c (q c)) mass eps w.1
        (randomMomentum w.2.1 mass) w.2.2).newQ) = fun w c => T c (w.1 c, w.2.1 c, w.2.2 c) := by
    funext w c
    rw [transition_chain]
    rfl
  have mall : Measurable fun w : (C → ι → ℝ) × (C → ι → ℝ) × (C → ℝ) =>
      fun c => T c (w.1 c, w.2.1 c, w.2.2 c) := by
    refine measurable_pi_lambda _ fun c => (mT c).comp ?_
    exact ((measurable_pi_apply c).comp measurable_fst).prodMk
      (((measurable_pi_apply c).comp (measurable_fst.comp measurable_snd)).prodMk
        ((measurable_pi_apply c).comp (measurable_snd.comp measurable_snd)))
  rw [e, ht, hu, ← h3.map_eq, Measure.map_map mall h3.measurable]
  have hlaw : ∀ c, ((Hmc.target (l c)).prod ((Measure.pi fun _ : ι => gaussianReal 0 1).prod unif)).map (T c) =
      Hmc.target (l c) := fun c => chain_law mass (g c) (l c) n eps (hg c) (hl c) hm
  have hs : ∀ c, SigmaFinite (((Hmc.target (l c)).prod
      ((Measure.pi fun _ : ι => gaussianReal 0 1).prod unif)).map (T c)) := fun c => by
    rw [hlaw]; infer_instance
  have h4 := Measure.pi_map_pi
    (μ := fun c => (Hmc.target (l c)).prod ((Measure.pi fun _ : ι => gaussianReal 0 1).prod unif))
    (f := T) (fun c => (mT c).aemeasurable)
  simp only [hlaw] at h4
  exact h4

/-- C52.  For a whole iteration of a sampler without adaptation. -/
theorem C52_sample (cfg : Cfg ℝ) (h1 : cfg.adaptsStep = false) (h2 : cfg.adaptsMass = false)
    (feed : Feed) (l : C → (ι → ℝ) → ℝ) (hl : ∀ c, Measurable (l c)) (g : C → (ι → ℝ) → ι → ℝ)
    (hg : ∀ c, Measurable (g c)) (s : State ℝ C ι)
    (next : (C → ι → ℝ) → (C → ι → ℝ) → (C → ℝ) → C → ι → ℝ)
    (hnext : ∀ q z u, ∃ s' info, sample cfg (fun q c => l c (q c)) (fun q c => g c (q c)) feed z u
      { s with q := q } = .ok s' info ∧ next q z u = s'.q) :
    let target : Measure (C → ι → ℝ) :=
      Measure.pi fun c => volume.withDensity fun q => ENNReal.ofReal (Real.exp (l c q))
    let normals : Measure (C → ι → ℝ) := Measure.pi fun _ => Measure.pi fun _ => gaussianReal 0 1
    let uniforms : Measure (C → ℝ) := Measure.pi fun _ => volume.restrict (Ico 0 1)
    (target.prod (normals.prod uniforms)).map (fun w => next w.1 w.2.1 w.2.2) = target := by
  intro target normals uniforms
  have e : (fun w : (C → ι → ℝ) × (C → ι → ℝ) × (C → ℝ) => next w.1 w.2.1 w.2.2) = fun w =>
      (transition cfg.nLeapfrogs (fun q c => l c (q c)) (fun q c => g c (q c)) (fun _ => 1) s.stepSize w.1
        (randomMomentum w.2.1 (fun _ => 1)) w.2.2).newQ := by
    funext w
    obtain ⟨s', info, h3, h4⟩ := hnext w.1 w.2.1 w.2.2
    obtain ⟨info', h5⟩ := C53_fixed cfg h1 h2 (fun q c => l c (q c)) (fun q c => g c (q c)) feed w.2.1 w.2.2
      { s with q := w.1 }
    rw [h5, Outcome.ok.injEq] at h3
    rw [h4, ← h3.1]
    have : randomMomentum w.2.1 (fun _ : ι => (1 : ℝ)) = w.2.1 := by
      funext c i
      simp [randomMomentum]
    rw [this]
  rw [e]
  exact C52_invariant cfg.nLeapfrogs (fun _ => 1) (fun _ => one_pos) s.stepSize l hl g hg

/-- A non-trivial case for `C52_sample`: such a `next` exists for every sampler without adaptation. -/
example (cfg : Cfg ℝ) (h1 : cfg.adaptsStep = false) (h2 : cfg.adaptsMass = false) (feed : Feed)
    (logPost : (C → ι → ℝ) → C → ℝ) (grad : (C → ι → ℝ) → C → ι → ℝ) (s : State ℝ C ι) :
    ∃ next : (C → ι → ℝ) → (C → ι → ℝ) → (C → ℝ) → C → ι → ℝ, ∀ q z u, ∃ s' info,
      sample cfg logPost grad feed z u { s with q := q } = .ok s' info ∧ next q z u = s'.q :=
  ⟨fun q z u => (transition cfg.nLeapfrogs logPost grad (fun _ => 1) s.stepSize q z u).newQ, fun q z u =>
    ⟨_, (C53_fixed cfg h1 h2 logPost grad feed z u { s with q := q }).choose,
      (C53_fixed cfg h1 h2 logPost grad feed z u { s with q := q }).choose_spec, rfl⟩⟩

/-- C52.  The documented practice: a sampler with adaptation, whose adaptation tensors are fed False after the
burn-in.  From iteration `mass_collect_iters + 1` on, and after at least one iteration, each iteration leaves
the target invariant, with the mass found during the burn-in (if no variance estimate is zero). -/
theorem C52_after_burn_in (cfg : Cfg ℝ) (feed : Feed) (h2 : feed.adaptMass = false) (l : C → (ι → ℝ) → ℝ)
    (hl : ∀ c, Measurable (l c)) (g : C → (ι → ℝ) → ι → ℝ) (hg : ∀ c, Measurable (g c)) (s : State ℝ C ι)
    (ht : 1 ≤ s.t) (ht' : cfg.massCollect ≤ s.t) (hv : cfg.adaptsMass = true → ∀ i, 0 < s.ewmv.var i)
    (next : (C → ι → ℝ) → (C → ι → ℝ) → (C → ℝ) → C → ι → ℝ)
    (hnext : ∀ q z u, ∃ s' info, sample cfg (fun q c => l c (q c)) (fun q c => g c (q c)) feed z u
      { s with q := q } = .ok s' info ∧ next q z u = s'.q) :
    let target : Measure (C → ι → ℝ) :=
      Measure.pi fun c => volume.withDensity fun q => ENNReal.ofReal (Real.exp (l c q))
    let normals : Measure (C → ι → ℝ) := Measure.pi fun _ => Measure.pi fun _ => gaussianReal 0 1
    let uniforms : Measure (C → ℝ) := Measure.pi fun _ => volume.restrict (Ico 0 1)
    (target.prod (normals.prod uniforms)).map (fun w => next w.1 w.2.1 w.2.2) = target := by
  intro target normals uniforms
  obtain ⟨mass, hmass, hpos⟩ : ∃ mass : ι → ℝ,
      (∀ q : C → ι → ℝ, (adaptMass cfg feed (s.t + 1) q s.ewmv).2 = mass) ∧ ∀ i, 0 < mass i := by
    cases hm : cfg.adaptsMass with
    | false => exact ⟨fun _ => 1, fun q => by simp [adaptMass, hm], fun _ => one_pos⟩
    | true =>
      refine ⟨precision s.ewmv.var, fun q => ?_, fun i => one_div_pos.2 (hv hm i)⟩
      simp only [adaptMass, hm, h2, if_true, Bool.false_eq_true, if_false]
      rw [if_neg (by omega)]
  have hi : ifInitialize cfg (s.t + 1) = false := by
    simp only [ifInitialize, Bool.or_eq_false_iff, beq_eq_false_iff_ne]
    omega
  have e : (fun w : (C → ι → ℝ) × (C → ι → ℝ) × (C → ℝ) => next w.1 w.2.1 w.2.2) = fun w =>
      (transition cfg.nLeapfrogs (fun q c => l c (q c)) (fun q c => g c (q c)) mass s.stepSize w.1
        (randomMomentum w.2.1 mass) w.2.2).newQ := by
    funext w
    obtain ⟨s', info, h3, h4⟩ := hnext w.1 w.2.1 w.2.2
    have eu : ∀ mass q p, usedStepSize cfg (fun q c => l c (q c)) (fun q c => g c (q c)) (s.t + 1) mass q p
        s.stepSize = some s.stepSize := by
      intro mass q p
      simp [usedStepSize, hi]
    simp only [sample, hmass, eu] at h3
    rw [if_pos (allFinite _), Outcome.ok.injEq] at h3
    rw [h4, ← h3.1]
  rw [e]
  exact C52_invariant cfg.nLeapfrogs mass hpos s.stepSize l hl g hg

/-- Such a `next` exists: after the burn-in every iteration finishes. -/
example (cfg : Cfg ℝ) (feed : Feed) (logPost : (C → ι → ℝ) → C → ℝ) (grad : (C → ι → ℝ) → C → ι → ℝ)
    (s : State ℝ C ι) (ht : 1 ≤ s.t) (ht' : cfg.massCollect ≤ s.t) (q z : C → ι → ℝ) (u : C → ℝ) :
    ∃ s' info, sample cfg logPost grad feed z u { s with q := q } = .ok s' info := by
  have hi : ifInitialize cfg (s.t + 1) = false := by
    simp only [ifInitialize, Bool.or_eq_false_iff, beq_eq_false_iff_ne]
    omega
  have eu : ∀ mass q p, usedStepSize cfg logPost grad (s.t + 1) mass q p s.stepSize = some s.stepSize := by
    intro mass q p
    simp [usedStepSize, hi]
  simp only [sample, eu]
  rw [if_pos (allFinite _)]
  exact ⟨_, _, rfl⟩

end ZhuSuan.Hmc
