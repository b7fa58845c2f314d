import Verif.Lemmas.HmcMulti
import Mathlib.MeasureTheory.Integral.Pi
import Mathlib.Probability.Distributions.Gaussian.Real

/-!
# C86 and C87: HMC settles at the posterior, and averages of its draws estimate expectations
-/

set_option autoImplicit false

open MeasureTheory Set ProbabilityTheory
open scoped ENNReal

namespace ZhuSuan.Hmc

variable {C ι : Type} [Fintype C] [Fintype ι]

/-! ## C86 -/

/-- **C86.** Without adaptation, with a log density that is everywhere finite and has a finite total, and with
short trajectories: from every start the position of all chains after `n` iterations is, for large `n`, as close as
wanted to independent draws from the posteriors, in the sense that the probabilities of all events differ by at
most `δ`. -/
theorem C86_converges (cfg : Cfg ℝ) (h1 : cfg.adaptsStep = false) (h2 : cfg.adaptsMass = false) (feed : Feed)
    (l : C → (ι → ℝ) → ℝ) (hl : ∀ c, Measurable (l c)) (hfin : ∀ c, ∫⁻ q, ENNReal.ofReal (Real.exp (l c q)) ≠ ∞)
    (g : C → (ι → ℝ) → ι → ℝ) (hg : ∀ c, Measurable (g c)) (s : State ℝ C ι)
    (hs : ShortPath (fun _ => 1) g cfg.nLeapfrogs s.stepSize) :
    ∀ δ > 0, ∃ n0, ∀ n ≥ n0, ∃ final : (Fin n → (C → ι → ℝ) × (C → ℝ)) → C → ι → ℝ, Measurable final ∧
      (∀ w, runs cfg (fun q c => l c (q c)) (fun q c => g c (q c)) feed s n w = some { s with q := final w }) ∧
      ∀ A, MeasurableSet A →
        |((Measure.pi fun _ : Fin n => draws C ι).map final).real A - (Measure.pi fun c => posterior (l c)).real A|
          ≤ δ := by
  intro δ hδ
  obtain ⟨n0, h0⟩ := multi_converges cfg.nLeapfrogs (fun _ => 1) l g (fun _ => s.stepSize) (fun _ _ => rfl)
    (fun _ => one_pos) hs hs hl hfin hg s.q δ hδ
  refine ⟨n0, fun n hn => ⟨Meas.iter (fun _ => multiStep cfg.nLeapfrogs (fun _ => 1) s.stepSize l g) s.q n,
    (MarkovConv.measurable_pos (measurable_multi cfg.nLeapfrogs (fun _ => 1) l g s.stepSize hl hg) n).comp
      measurable_prodMk_left, fun w => ?_, h0 n hn⟩⟩
  exact runs_fixed cfg h1 h2 feed l g s n s.q w

/-- **C86.** The documented practice: after the burn-in the adaptation tensors are fed False.  If the
trajectories are short for the mass and the step sizes that the burn-in left behind, the chains converge to the
posteriors, wherever the burn-in left them. -/
theorem C86_after_burn_in (cfg : Cfg ℝ) (feed : Feed) (hf1 : feed.adaptStep = false) (hf2 : feed.adaptMass = false)
    (l : C → (ι → ℝ) → ℝ) (hl : ∀ c, Measurable (l c)) (hfin : ∀ c, ∫⁻ q, ENNReal.ofReal (Real.exp (l c q)) ≠ ∞)
    (g : C → (ι → ℝ) → ι → ℝ) (hg : ∀ c, Measurable (g c)) (s : State ℝ C ι) (ht : 1 ≤ s.t)
    (ht' : cfg.massCollect ≤ s.t) (hv : cfg.adaptsMass = true → ∀ i, 0 < s.ewmv.var i)
    (hs0 : ShortPath (burnedMass cfg s) g cfg.nLeapfrogs (burnedStep cfg s 0))
    (hs1 : ShortPath (burnedMass cfg s) g cfg.nLeapfrogs (burnedStep cfg s 1)) :
    ∀ δ > 0, ∃ n0, ∀ n ≥ n0, ∃ final : (Fin n → (C → ι → ℝ) × (C → ℝ)) → C → ι → ℝ, Measurable final ∧
      (∀ w, ∃ s', runs cfg (fun q c => l c (q c)) (fun q c => g c (q c)) feed s n w = some s' ∧ s'.q = final w) ∧
      ∀ A, MeasurableSet A →
        |((Measure.pi fun _ : Fin n => draws C ι).map final).real A - (Measure.pi fun c => posterior (l c)).real A|
          ≤ δ := by
  intro δ hδ
  have heps : ∀ k, 1 ≤ k → burnedStep cfg s k = burnedStep cfg s 1 := by
    intro k hk
    simp [burnedStep, show k ≠ 0 by omega]
  obtain ⟨n0, h0⟩ := multi_converges cfg.nLeapfrogs (burnedMass cfg s) l g (burnedStep cfg s) heps
    (burnedMass_pos cfg s hv) hs0 hs1 hl hfin hg s.q δ hδ
  refine ⟨n0, fun n hn => ⟨Meas.iter (fun j => multiStep cfg.nLeapfrogs (burnedMass cfg s) (burnedStep cfg s j) l g)
    s.q n, (Meas.measurable_iter (fun j => measurable_multi cfg.nLeapfrogs (burnedMass cfg s) l g (burnedStep cfg s j)
      hl hg) n).comp measurable_prodMk_left, fun w => ?_, h0 n hn⟩⟩
  obtain ⟨s', e1, e2, _⟩ := runs_after cfg feed hf1 hf2 l g s ht ht' n s.q w
  exact ⟨s', e1, e2⟩

/-- **C86.** Under the same conditions the posterior is the only probability that an iteration leaves as it is. -/
theorem C86_unique (cfg : Cfg ℝ) (h1 : cfg.adaptsStep = false) (h2 : cfg.adaptsMass = false) (feed : Feed)
    (l : C → (ι → ℝ) → ℝ) (hl : ∀ c, Measurable (l c)) (hfin : ∀ c, ∫⁻ q, ENNReal.ofReal (Real.exp (l c q)) ≠ ∞)
    (g : C → (ι → ℝ) → ι → ℝ) (hg : ∀ c, Measurable (g c)) (s : State ℝ C ι)
    (hs : ShortPath (fun _ => 1) g cfg.nLeapfrogs s.stepSize) :
    ∃ next : (C → ι → ℝ) × ((C → ι → ℝ) × (C → ℝ)) → C → ι → ℝ, Measurable next ∧
      (∀ q z u, ∃ info, sample cfg (fun q c => l c (q c)) (fun q c => g c (q c)) feed z u { s with q := q } =
        .ok { s with q := next (q, z, u) } info) ∧
      ∀ μ : Measure (C → ι → ℝ), IsProbabilityMeasure μ →
        ((μ.prod (draws C ι)).map next = μ ↔ μ = Measure.pi fun c => posterior (l c)) := by
  refine ⟨fun w => multiStep cfg.nLeapfrogs (fun _ => 1) s.stepSize l g w.1 w.2,
    measurable_multi cfg.nLeapfrogs (fun _ => 1) l g s.stepSize hl hg, fun q z u => ?_, fun μ hμ => ⟨fun h => ?_, ?_⟩⟩
  · obtain ⟨info, h⟩ := C53_fixed cfg h1 h2 (fun q c => l c (q c)) (fun q c => g c (q c)) feed z u { s with q := q }
    refine ⟨info, h.trans ?_⟩
    have : randomMomentum z (fun _ : ι => (1 : ℝ)) = z := by
      funext c i
      simp [randomMomentum]
    simp only [multiStep, this]
  · exact multi_unique cfg.nLeapfrogs (fun _ => 1) l g (fun _ => s.stepSize) (fun _ => one_pos) hs hl hfin hg μ h
  · rintro rfl
    have hpp : ∀ c, IsProbabilityMeasure (posterior (l c)) := fun c => posterior_prob (l c) (hl c) (hfin c)
    have h := step_multi cfg.nLeapfrogs (fun _ => 1) l g s.stepSize hl hg fun c => posterior (l c)
    refine h.trans ?_
    congr 1
    funext c
    exact (balanced (fun _ => 1) (g c) (l c) cfg.nLeapfrogs s.stepSize (hg c) (hl c)
      (fun _ => one_pos)).invariant (measurable_drawStep (fun _ => 1) (g c) (l c) cfg.nLeapfrogs s.stepSize (hg c) (hl c))

/-! ## A step size with which HMC never moves on -/

section Resonance

omit [Fintype ι] in
/-- The trajectory for a standard normal target is a rotation. -/
theorem traj_normal (θ : ℝ) (hc : Real.cos (θ / 2) ≠ 0) (q p : ι → ℝ) (k : ℕ) :
    traj (fun _ => 1) (fun q i => -q i) (2 * Real.sin (θ / 2)) q p k =
      (fun i => q i * Real.cos (k * θ) + p i * Real.sin (k * θ) / Real.cos (θ / 2),
       fun i => (p i * Real.cos (k * θ) - q i * Real.sin (k * θ) * Real.cos (θ / 2)) -
        Real.sin (θ / 2) * (q i * Real.cos (k * θ) + p i * Real.sin (k * θ) / Real.cos (θ / 2))) := by
  have hs : Real.sin θ = 2 * Real.sin (θ / 2) * Real.cos (θ / 2) := by
    rw [← Real.sin_two_mul]; ring_nf
  have hcs : Real.cos θ = 1 - 2 * Real.sin (θ / 2) ^ 2 := by
    have := Real.cos_two_mul (θ / 2)
    rw [show 2 * (θ / 2) = θ by ring] at this
    rw [this, Real.cos_sq']; ring
  have hsq := Real.sin_sq_add_cos_sq (θ / 2)
  induction k with
  | zero => simp [traj]; funext i; ring
  | succ k ih =>
    have e : ((k + 1 : ℕ) : ℝ) * θ = k * θ + θ := by push_cast; ring
    simp only [traj, ih, e, Real.cos_add, Real.sin_add, hs, hcs]
    set a := Real.sin (θ / 2)
    set b := Real.cos (θ / 2)
    set x := Real.cos (k * θ)
    set y := Real.sin (k * θ)
    have h1 : ∀ i, q i * x + p i * y / b + 2 * a * ((p i * x - q i * y * b - a * (q i * x + p i * y / b)) / 1) =
        q i * (x * (1 - 2 * a ^ 2) - y * (2 * a * b)) + p i * (y * (1 - 2 * a ^ 2) + x * (2 * a * b)) / b := by
      intro i
      field_simp
      ring
    refine Prod.ext (funext h1) (funext fun i => ?_)
    simp only [h1]
    field_simp
    have hb : b ^ 2 = 1 - a ^ 2 := by linarith
    have hb3 : b ^ 3 = b * (1 - a ^ 2) := by rw [← hb]; ring
    ring_nf
    simp only [hb3, hb]
    ring

omit [Fintype ι] in
theorem leap1_traj_momentum (mass : ι → ℝ) (g : (ι → ℝ) → ι → ℝ) (eps : ℝ) (n : ℕ) (q p : ι → ℝ) :
    (leap1 mass g (n + 1) eps (q, p)).2 =
      fun i => (traj mass g eps q p (n + 1)).2 i - eps / 2 * g (traj mass g eps q p (n + 1)).1 i := by
  simp only [leap1, leapfrog_succ]
  set gr : (Unit → ι → ℝ) → Unit → ι → ℝ := fun q _ => g (q ()) with hgr
  have h : ∀ k, (fun y => kick gr eps (drift mass eps y))^[k]
      (kick gr (eps / 2) (fun _ => q, fun _ => p)) =
      (fun _ => (traj mass g eps q p k).1, fun _ => (traj mass g eps q p k).2) := by
    intro k
    induction k with
    | zero => rfl
    | succ k ih => rw [Function.iterate_succ_apply', ih]; rfl
  rw [h n]
  funext i
  simp only [kick, drift, traj, hgr]
  ring

omit [Fintype ι] in
/-- Half a turn. -/
theorem leap1_half_turn (n : ℕ) (hn : 2 ≤ n) (q p : ι → ℝ) :
    leap1 (fun _ => 1) (fun q i => -q i) n (2 * Real.sin (Real.pi / n / 2)) (q, p) = (-q, -p) := by
  obtain ⟨m, rfl⟩ : ∃ m, n = m + 1 := ⟨n - 1, by omega⟩
  have hnp : (0 : ℝ) < ((m + 1 : ℕ) : ℝ) := by positivity
  have h2 : (2 : ℝ) ≤ ((m + 1 : ℕ) : ℝ) := by exact_mod_cast hn
  have hc : Real.cos (Real.pi / ((m + 1 : ℕ) : ℝ) / 2) ≠ 0 := by
    refine (Real.cos_pos_of_mem_Ioo ⟨?_, ?_⟩).ne'
    · have : 0 < Real.pi / ((m + 1 : ℕ) : ℝ) / 2 := by positivity
      linarith [Real.pi_pos]
    · have : Real.pi / ((m + 1 : ℕ) : ℝ) < Real.pi := by
        rw [div_lt_iff₀ hnp]
        nlinarith [Real.pi_pos]
      linarith
  have e : ((m + 1 : ℕ) : ℝ) * (Real.pi / ((m + 1 : ℕ) : ℝ)) = Real.pi := by field_simp
  refine Prod.ext ?_ ?_
  · rw [leap1_traj, traj_normal _ hc]
    funext i
    simp only [e, Real.cos_pi, Real.sin_pi, Pi.neg_apply]
    ring
  · rw [leap1_traj_momentum, traj_normal _ hc]
    funext i
    simp only [e, Real.cos_pi, Real.sin_pi, Pi.neg_apply]
    ring

/-- **C86.** The condition on the trajectory cannot be dropped, and the acceptance rate does not warn.  For a
standard normal posterior and any number `n ≥ 2` of leapfrog steps, the step size `2 sin (π / 2n)` turns every state
around: whatever is drawn, every proposal is accepted and every iteration only changes the sign of the position.
The chain visits `q` and `-q` for ever, although the posterior gives them no probability. -/
theorem C86_resonance [Nonempty ι] (cfg : Cfg ℝ) (h1 : cfg.adaptsStep = false) (h2 : cfg.adaptsMass = false)
    (feed : Feed) (hn : 2 ≤ cfg.nLeapfrogs) (a : C → ℝ) (s : State ℝ C ι)
    (hs : s.stepSize = 2 * Real.sin (Real.pi / cfg.nLeapfrogs / 2)) :
    let l : C → (ι → ℝ) → ℝ := fun c q => a c - ∑ i, q i ^ 2 / 2
    let g : C → (ι → ℝ) → ι → ℝ := fun _ q i => -q i
    (∀ n (w : Fin n → (C → ι → ℝ) × (C → ℝ)), (∀ j c, (w j).2 c < 1) →
      runs cfg (fun q c => l c (q c)) (fun q c => g c (q c)) feed s n w =
        some { s with q := fun c i => (-1) ^ n * s.q c i }) ∧
      ∀ c, posterior (l c) {s.q c, -s.q c} = 0 := by
  intro l g
  constructor
  · intro n w hw
    have hr := runs_fixed cfg h1 h2 feed l g s n s.q w
    refine hr.trans ?_
    congr 2
    clear hr
    induction n with
    | zero => funext c i; simp [Meas.iter]
    | succ n ih =>
      have hi := ih (fun j => w j.castSucc) fun j c => hw j.castSucc c
      funext c i
      simp only [Meas.iter]
      rw [hi, multi_chain]
      have hL := leap1_half_turn cfg.nLeapfrogs hn (fun i => (-1) ^ n * s.q c i)
        (fun i => (w (Fin.last n)).1 c i * Real.sqrt 1)
      rw [← hs] at hL
      have hE : energy (fun _ => 1) (l c) (fun i => (-1) ^ n * s.q c i, fun i => (w (Fin.last n)).1 c i * Real.sqrt 1) -
          energy (fun _ => 1) (l c) (-(fun i => (-1) ^ n * s.q c i), -fun i => (w (Fin.last n)).1 c i * Real.sqrt 1) =
          0 := by
        simp [energy, l]
      have hd : drawStep (fun _ => 1) (g c) (l c) cfg.nLeapfrogs s.stepSize (fun i => (-1) ^ n * s.q c i)
          ((w (Fin.last n)).1 c, (w (Fin.last n)).2 c) = -fun i => (-1) ^ n * s.q c i := by
        rw [drawStep_accepted]
        · exact congrArg Prod.fst hL
        · show (w (Fin.last n)).2 c < _
          have : leap1 (fun _ => 1) (g c) cfg.nLeapfrogs s.stepSize (fun i => (-1) ^ n * s.q c i,
            fun i => (w (Fin.last n)).1 c i * Real.sqrt 1) = _ := hL
          simp only [this]
          rw [hE, min_self, Real.exp_zero]
          exact hw _ c
      refine (congrFun hd i).trans ?_
      simp only [Pi.neg_apply, pow_succ]
      ring
  · intro c
    have h0 : (volume : Measure (ι → ℝ)) {s.q c, -s.q c} = 0 :=
      (Set.Finite.measure_zero (Set.toFinite _) volume)
    rw [posterior, Measure.smul_apply, (withDensity_absolutelyContinuous _ _) h0, smul_zero]

end Resonance

/-! ## C87 -/

/-- **C87.** Without adaptation and with short trajectories: for every function `f` with a finite expectation under
the posterior of a chain, the average of `f` over the first `n` draws of that chain is close to the expectation
with probability as near to one as wanted, for large `n` and whatever the start. -/
theorem C87_averages (cfg : Cfg ℝ) (h1 : cfg.adaptsStep = false) (h2 : cfg.adaptsMass = false) (feed : Feed)
    (l : C → (ι → ℝ) → ℝ) (hl : ∀ c, Measurable (l c)) (hfin : ∀ c, ∫⁻ q, ENNReal.ofReal (Real.exp (l c q)) ≠ ∞)
    (g : C → (ι → ℝ) → ι → ℝ) (hg : ∀ c, Measurable (g c)) (s : State ℝ C ι)
    (hs : ShortPath (fun _ => 1) g cfg.nLeapfrogs s.stepSize) (c : C) (f : (ι → ℝ) → ℝ) (hf : Measurable f)
    (hi : Integrable f (posterior (l c))) :
    ∀ δ > 0, ∀ ε > 0, ∃ n0, ∀ n ≥ n0, ∃ x : Fin n → (Fin n → (C → ι → ℝ) × (C → ℝ)) → C → ι → ℝ,
      (∀ (j : Fin n) w, runs cfg (fun q c => l c (q c)) (fun q c => g c (q c)) feed s (j + 1) (fun i => w (Fin.castLE j.2 i)) =
        some { s with q := x j w }) ∧
      (Measure.pi fun _ : Fin n => draws C ι)
        {w | δ < |(∑ j, f (x j w c)) / n - ∫ q, f q ∂(posterior (l c))|} ≤ ENNReal.ofReal ε := by
  intro δ hδ ε hε
  obtain ⟨n0, h0⟩ := multi_average cfg.nLeapfrogs (fun _ => 1) l g (fun _ => s.stepSize) (fun _ _ => rfl)
    (fun _ => one_pos) hs hs hl hfin hg s.q c f hf hi δ hδ ε hε
  exact ⟨n0, fun n hn => ⟨fun (j : Fin n) w => Meas.iter (fun _ => multiStep cfg.nLeapfrogs (fun _ => 1) s.stepSize l g) s.q
    (j + 1) fun i => w (Fin.castLE j.2 i), fun (j : Fin n) w => runs_fixed cfg h1 h2 feed l g s (j + 1) s.q _, h0 n hn⟩⟩

/-- **C87.** The same for the draws after a burn-in, with the adaptation tensors fed False. -/
theorem C87_after_burn_in (cfg : Cfg ℝ) (feed : Feed) (hf1 : feed.adaptStep = false) (hf2 : feed.adaptMass = false)
    (l : C → (ι → ℝ) → ℝ) (hl : ∀ c, Measurable (l c)) (hfin : ∀ c, ∫⁻ q, ENNReal.ofReal (Real.exp (l c q)) ≠ ∞)
    (g : C → (ι → ℝ) → ι → ℝ) (hg : ∀ c, Measurable (g c)) (s : State ℝ C ι) (ht : 1 ≤ s.t)
    (ht' : cfg.massCollect ≤ s.t) (hv : cfg.adaptsMass = true → ∀ i, 0 < s.ewmv.var i)
    (hs0 : ShortPath (burnedMass cfg s) g cfg.nLeapfrogs (burnedStep cfg s 0))
    (hs1 : ShortPath (burnedMass cfg s) g cfg.nLeapfrogs (burnedStep cfg s 1)) (c : C) (f : (ι → ℝ) → ℝ)
    (hf : Measurable f) (hi : Integrable f (posterior (l c))) :
    ∀ δ > 0, ∀ ε > 0, ∃ n0, ∀ n ≥ n0, ∃ x : Fin n → (Fin n → (C → ι → ℝ) × (C → ℝ)) → C → ι → ℝ,
      (∀ (j : Fin n) w, ∃ s', runs cfg (fun q c => l c (q c)) (fun q c => g c (q c)) feed s (j + 1)
        (fun i => w (Fin.castLE j.2 i)) = some s' ∧ s'.q = x j w) ∧
      (Measure.pi fun _ : Fin n => draws C ι)
        {w | δ < |(∑ j, f (x j w c)) / n - ∫ q, f q ∂(posterior (l c))|} ≤ ENNReal.ofReal ε := by
  intro δ hδ ε hε
  have heps : ∀ k, 1 ≤ k → burnedStep cfg s k = burnedStep cfg s 1 := by
    intro k hk
    simp [burnedStep, show k ≠ 0 by omega]
  obtain ⟨n0, h0⟩ := multi_average cfg.nLeapfrogs (burnedMass cfg s) l g (burnedStep cfg s) heps
    (burnedMass_pos cfg s hv) hs0 hs1 hl hfin hg s.q c f hf hi δ hδ ε hε
  refine ⟨n0, fun n hn => ⟨fun (j : Fin n) w => Meas.iter (fun j => multiStep cfg.nLeapfrogs (burnedMass cfg s)
    (burnedStep cfg s j) l g) s.q (j + 1) fun i => w (Fin.castLE j.2 i), fun (j : Fin n) w => ?_, h0 n hn⟩⟩
  obtain ⟨s', e1, e2, _⟩ := runs_after cfg feed hf1 hf2 l g s ht ht' (j + 1) s.q fun i => w (Fin.castLE j.2 i)
  exact ⟨s', e1, e2⟩

/-! ## Concrete cases -/

section Examples

/-- A standard normal log density has a finite total. -/
theorem normal_total (a : ℝ) : ∫⁻ q : ι → ℝ, ENNReal.ofReal (Real.exp (a - ∑ i, q i ^ 2 / 2)) ≠ ∞ := by
  have h := (Integrable.fintype_prod (ι := ι) (f := fun _ x => Real.exp (-(1 / 2) * x ^ 2))
    (μ := fun _ => (volume : Measure ℝ)) fun _ => integrable_exp_neg_mul_sq (by norm_num)).const_mul (Real.exp a)
  refine (lt_of_eq_of_lt (lintegral_congr fun q => ?_) h.lintegral_lt_top).ne
  rw [← Real.exp_sum, ← Real.exp_add]
  congr 3
  rw [sub_eq_add_neg, ← Finset.sum_neg_distrib]
  exact congrArg _ (Finset.sum_congr rfl fun i _ => by ring)

omit [Fintype C] in
/-- A standard normal in any dimension, with trajectories of length at most one, meets the hypotheses. -/
theorem normal_short (n : ℕ) (hn : 0 < n) (eps : ℝ) (he : 0 < eps) (h : n * eps ≤ 1) :
    ShortPath (C := C) (fun _ : ι => 1) (fun _ q i => -q i) n eps := by
  refine ⟨hn, he, 1, zero_le_one, ?_, fun c x y => ?_⟩
  · have : 0 ≤ n * eps := by positivity
    nlinarith
  · rw [one_mul, ← norm_neg (x - y)]
    refine le_of_eq (congrArg _ (funext fun i => ?_))
    simp only [Pi.neg_apply, Pi.sub_apply]
    ring

/-- Ten leapfrog steps of size 0.1 for standard normals: the chains converge from every start. -/
example (cfg : Cfg ℝ) (h1 : cfg.adaptsStep = false) (h2 : cfg.adaptsMass = false) (h3 : cfg.nLeapfrogs = 10)
    (feed : Feed) (s : State ℝ C ι) (hs : s.stepSize = 0.1) :
    ∀ δ > 0, ∃ n0, ∀ n ≥ n0, ∃ final : (Fin n → (C → ι → ℝ) × (C → ℝ)) → C → ι → ℝ, Measurable final ∧
      (∀ w, runs cfg (fun q c => 0 - ∑ i, q c i ^ 2 / 2) (fun q c i => -q c i) feed s n w =
        some { s with q := final w }) ∧
      ∀ A, MeasurableSet A →
        |((Measure.pi fun _ : Fin n => draws C ι).map final).real A -
          (Measure.pi fun _ : C => posterior fun q : ι → ℝ => 0 - ∑ i, q i ^ 2 / 2).real A| ≤ δ :=
  C86_converges cfg h1 h2 feed (fun _ q => 0 - ∑ i, q i ^ 2 / 2) (fun _ => by fun_prop) (fun _ => normal_total 0)
    (fun _ q i => -q i) (fun _ => by fun_prop) s
    (by rw [h3, hs]; exact normal_short 10 (by norm_num) 0.1 (by norm_num) (by norm_num))

/-- The mean of the arc tangent of a coordinate is estimated. -/
example (cfg : Cfg ℝ) (h1 : cfg.adaptsStep = false) (h2 : cfg.adaptsMass = false) (h3 : cfg.nLeapfrogs = 10)
    (feed : Feed) (s : State ℝ C ι) (hs : s.stepSize = 0.1) (c : C) (i : ι) :
    ∀ δ > 0, ∀ ε > 0, ∃ n0, ∀ n ≥ n0, ∃ x : Fin n → (Fin n → (C → ι → ℝ) × (C → ℝ)) → C → ι → ℝ,
      (∀ (j : Fin n) w, runs cfg (fun q c => 0 - ∑ i, q c i ^ 2 / 2) (fun q c i => -q c i) feed s (j + 1)
        (fun i => w (Fin.castLE j.2 i)) = some { s with q := x j w }) ∧
      (Measure.pi fun _ : Fin n => draws C ι)
        {w | δ < |(∑ j, Real.arctan (x j w c i)) / n -
          ∫ q : ι → ℝ, Real.arctan (q i) ∂(posterior fun q => 0 - ∑ i, q i ^ 2 / 2)|} ≤ ENNReal.ofReal ε := by
  have hp := posterior_prob (fun q : ι → ℝ => 0 - ∑ i, q i ^ 2 / 2) (by fun_prop) (normal_total 0)
  have hm : Measurable fun q : ι → ℝ => Real.arctan (q i) := Real.continuous_arctan.measurable.comp (measurable_pi_apply i)
  have hb : Integrable (fun q : ι → ℝ => Real.arctan (q i)) (posterior fun q : ι → ℝ => 0 - ∑ i, q i ^ 2 / 2) := by
    refine Integrable.of_bound hm.aestronglyMeasurable (Real.pi / 2) (.of_forall fun q => ?_)
    rw [Real.norm_eq_abs, abs_le]
    exact ⟨(Real.neg_pi_div_two_lt_arctan _).le, (Real.arctan_lt_pi_div_two _).le⟩
  have hsp : ShortPath (C := C) (fun _ : ι => 1) (fun _ q i => -q i) cfg.nLeapfrogs s.stepSize := by
    rw [h3, hs]
    exact normal_short 10 (by norm_num) 0.1 (by norm_num) (by norm_num)
  exact C87_averages cfg h1 h2 feed (fun _ q => 0 - ∑ i, q i ^ 2 / 2) (fun _ => by fun_prop) (fun _ => normal_total 0)
    (fun _ q i => -q i) (fun _ => by fun_prop) s hsp c (fun q => Real.arctan (q i)) hm hb

/-- A burn-in that adapted step size and mass: variances in `[1/2, 2]`, ten steps of size at most 0.05. -/
example (cfg : Cfg ℝ) (h3 : cfg.nLeapfrogs = 10) (s : State ℝ C ι) (h2 : cfg.adaptsMass = true)
    (h1 : cfg.adaptsStep = true) (hv : ∀ i, 1 / 2 ≤ s.ewmv.var i ∧ s.ewmv.var i ≤ 2) (e0 : 0 < s.stepSize)
    (e1 : s.stepSize ≤ 0.05) (e2 : s.tuner.logEpsBar ≤ Real.log 0.05) :
    ShortPath (C := C) (burnedMass cfg s) (fun _ q i => -q i) cfg.nLeapfrogs (burnedStep cfg s 0) ∧
      ShortPath (C := C) (burnedMass cfg s) (fun _ q i => -q i) cfg.nLeapfrogs (burnedStep cfg s 1) := by
  have key : ∀ e : ℝ, 0 < e → e ≤ 0.05 →
      ShortPath (C := C) (burnedMass cfg s) (fun _ q i => -q i) cfg.nLeapfrogs e := by
    intro e he he'
    refine ⟨by omega, he, 2, by norm_num, ?_, fun c x y => ?_⟩
    · rw [h3]
      push_cast
      nlinarith
    · refine (pi_norm_le_iff_of_nonneg (by positivity)).2 fun i => ?_
      have hb := norm_le_pi_norm (x - y) i
      rw [Pi.sub_apply, Real.norm_eq_abs] at hb
      obtain ⟨v1, v2⟩ := hv i
      have e : (-x i - -y i) / burnedMass cfg s i = -((x i - y i) * s.ewmv.var i) := by
        simp only [burnedMass, h2, if_true]
        have : s.ewmv.var i ≠ 0 := by linarith
        field_simp
        ring
      rw [e, norm_neg, Real.norm_eq_abs, abs_mul, abs_of_pos (show 0 < s.ewmv.var i by linarith), mul_comm]
      exact mul_le_mul v2 hb (abs_nonneg _) (by norm_num)
  refine ⟨key _ (by simpa [burnedStep] using e0) (by simpa [burnedStep] using e1),
    key _ (by simp [burnedStep, h1, Real.exp_pos]) ?_⟩
  simp only [burnedStep, h1, ne_eq, one_ne_zero, not_false_eq_true, and_self, if_true]
  calc Real.exp s.tuner.logEpsBar ≤ Real.exp (Real.log 0.05) := Real.exp_le_exp.2 e2
    _ = 0.05 := Real.exp_log (by norm_num)

/-- Two leapfrog steps of size `√2` for a standard normal, from the point 1: the draws are `-1, 1, -1, ...`. -/
example (cfg : Cfg ℝ) (h1 : cfg.adaptsStep = false) (h2 : cfg.adaptsMass = false) (h3 : cfg.nLeapfrogs = 2)
    (feed : Feed) (s : State ℝ C Unit) (hs : s.stepSize = Real.sqrt 2) (hq : s.q = fun _ _ => 1) (n : ℕ)
    (w : Fin n → (C → Unit → ℝ) × (C → ℝ)) (hw : ∀ j c, (w j).2 c < 1) :
    runs cfg (fun q c => 0 - ∑ i, q c i ^ 2 / 2) (fun q c i => -q c i) feed s n w =
      some { s with q := fun _ _ => (-1) ^ n } := by
  have h := (C86_resonance cfg h1 h2 feed (by omega) (fun _ => 0) s (by
    rw [hs, h3]
    have : Real.pi / ((2 : ℕ) : ℝ) / 2 = Real.pi / 4 := by push_cast; ring
    rw [this, Real.sin_pi_div_four]
    ring)).1 n w hw
  rw [h, hq]
  simp

end Examples

end ZhuSuan.Hmc
