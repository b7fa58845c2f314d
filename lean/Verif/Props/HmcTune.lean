import Verif.Lemmas.DualAveraging
import Verif.Props.HmcAdapt

/-!
# C88: step size adaptation drives the acceptance rate to the target
-/

set_option autoImplicit false

open Filter

namespace ZhuSuan.Hmc

variable {C ι : Type} [Fintype C] [Fintype ι]

section

variable (cfg : Cfg ℝ) (h1 : cfg.adaptsStep = true) (ht0 : 0 ≤ cfg.tuner.t0) (hg : 0 < cfg.tuner.gamma)
  (logPost : (C → ι → ℝ) → C → ℝ) (grad : (C → ι → ℝ) → C → ι → ℝ) (feed : ℕ → Feed)
  (h2 : ∀ k, (feed k).adaptStep = true) (z : ℕ → C → ι → ℝ) (u : ℕ → C → ℝ)
  (s : ℕ → State ℝ C ι) (info : ℕ → Info ℝ C ι)
  (hs : ∀ k, sample cfg logPost grad (feed k) (z k) (u k) (s k) = .ok (s (k + 1)) (info k)) (ht : (s 0).t = 0)

include h1 ht0 hg h2 hs ht in
/-- **C88.** During an adaptation the mean acceptance rate so far and the present step size are tied to each
other: after `n` iterations since the last restart, the mean rate differs from the target by exactly
`γ (n + t0) / n^{3/2}` times the distance of the log step size from `10 * step_size`.  So whatever the model, a step
size that stays within bounds means that the target is met up to an error of the order `1 / √n`. -/
theorem C88_gap (k : ℕ) (hk : k = 0 ∨ k + 1 = cfg.massCollect) (n : ℕ) (hn0 : 0 < n)
    (hn : k + 1 < cfg.massCollect → k + n < cfg.massCollect) :
    (∑ i ∈ Finset.range n, (∑ c, (info (k + i)).acceptanceRate c) / Fintype.card C) / n - cfg.tuner.delta =
      cfg.tuner.gamma * (n + cfg.tuner.t0) / (n * Real.sqrt n) *
        (Real.log (s (k + n)).stepSize - 10 * cfg.tuner.initial) := by
  obtain ⟨m, rfl⟩ : ∃ m, n = m + 1 := ⟨n - 1, by omega⟩
  have h := (C54_sample cfg h1 ht0 logPost grad feed h2 z u s info hs ht k hk m (fun h => by have := hn h; omega)).1
  rw [← add_assoc, h, Real.log_exp]
  exact dual_gap cfg.tuner.mu cfg.tuner.gamma cfg.tuner.t0 cfg.tuner.delta _ hg ht0 (m + 1) (by omega)

include h1 ht0 h2 hs ht in
theorem log_step (k : ℕ) (hk : (k = 0 ∧ cfg.massCollect ≤ 1) ∨ k + 1 = cfg.massCollect) (n : ℕ) :
    Real.log (s (k + n + 1)).stepSize = dualLogStep cfg.tuner.mu cfg.tuner.gamma cfg.tuner.t0
      cfg.tuner.delta (fun i => avg (info (k + i)).acceptanceRate) (n + 1) := by
  rw [(C54_sample cfg h1 ht0 logPost grad feed h2 z u s info hs ht k (by omega) n (by omega)).1, Real.log_exp]

include h1 ht0 h2 hs ht in
theorem step_pos (k : ℕ) (hk : (k = 0 ∧ cfg.massCollect ≤ 1) ∨ k + 1 = cfg.massCollect) (n : ℕ) :
    0 < (s (k + n + 1)).stepSize := by
  rw [(C54_sample cfg h1 ht0 logPost grad feed h2 z u s info hs ht k (by omega) n (by omega)).1]
  exact Real.exp_pos _

include h1 ht0 hg h2 hs ht in
/-- **C88.** If the step sizes since the last restart `k` stay within positive bounds, the mean of the acceptance
rates since then converges to the target. -/
theorem C88_target (k : ℕ) (hk : (k = 0 ∧ cfg.massCollect ≤ 1) ∨ k + 1 = cfg.massCollect) (lo hi : ℝ) (hlo : 0 < lo)
    (hb : ∀ n, lo ≤ (s (k + n + 1)).stepSize ∧ (s (k + n + 1)).stepSize ≤ hi) :
    Tendsto (fun n : ℕ => (∑ i ∈ Finset.range (n + 1), (∑ c, (info (k + i)).acceptanceRate c) / Fintype.card C) /
      ((n + 1 : ℕ) : ℝ)) atTop (nhds cfg.tuner.delta) := by
  refine dual_average cfg.tuner.mu cfg.tuner.gamma cfg.tuner.t0 cfg.tuner.delta
    (fun i => avg (info (k + i)).acceptanceRate) hg ht0
    (max |Real.log lo - cfg.tuner.mu| |Real.log hi - cfg.tuner.mu|) fun n => ?_
  rw [← log_step cfg h1 ht0 logPost grad feed h2 z u s info hs ht k hk n]
  obtain ⟨b1, b2⟩ := hb n
  have l1 := Real.log_le_log hlo b1
  have l2 := Real.log_le_log (step_pos cfg h1 ht0 logPost grad feed h2 z u s info hs ht k hk n) b2
  rw [abs_le]
  constructor
  · have := (neg_abs_le (Real.log lo - cfg.tuner.mu))
    have h' := le_max_left |Real.log lo - cfg.tuner.mu| |Real.log hi - cfg.tuner.mu|
    linarith
  · have := le_abs_self (Real.log hi - cfg.tuner.mu)
    have h' := le_max_right |Real.log lo - cfg.tuner.mu| |Real.log hi - cfg.tuner.mu|
    linarith

/-- The reported rates are probabilities. -/
theorem sample_rate (cfg : Cfg ℝ) (logPost : (C → ι → ℝ) → C → ℝ) (grad : (C → ι → ℝ) → C → ι → ℝ)
    (feed : Feed) (z : C → ι → ℝ) (u : C → ℝ) (s s' : State ℝ C ι) (info : Info ℝ C ι)
    (h : sample cfg logPost grad feed z u s = .ok s' info) (c : C) :
    0 ≤ info.acceptanceRate c ∧ info.acceptanceRate c ≤ 1 := by
  simp only [sample] at h
  split at h
  · exact absurd h (by simp)
  · rw [if_pos (allFinite _)] at h
    simp only [Outcome.ok.injEq] at h
    obtain ⟨rfl, rfl⟩ := h
    simp only [transition, getAcceptanceRate, acceptanceRate, Flt.isFinite, Flt.exp, Flt.minimum, Flt.ofReal, true_and,
      if_true]
    exact ⟨(Real.exp_pos _).le, Real.exp_le_one_iff.2 (min_le_right _ _)⟩

theorem avg_range (f : C → ℝ) (h : ∀ c, 0 ≤ f c ∧ f c ≤ 1) : 0 ≤ avg f ∧ avg f ≤ 1 := by
  refine ⟨div_nonneg (Finset.sum_nonneg fun c _ => (h c).1) (Nat.cast_nonneg _), ?_⟩
  rcases Nat.eq_zero_or_pos (Fintype.card C) with h0 | h0
  · simp [avg, h0]
  · rw [avg, div_le_one (by exact_mod_cast h0)]
    calc ∑ c, f c ≤ ∑ _c : C, (1 : ℝ) := Finset.sum_le_sum fun c _ => (h c).2
      _ = Fintype.card C := by simp

include h1 ht0 hg h2 hs ht in
/-- **C88.** The step sizes stay within bounds by themselves if the rates respond to them: whenever an iteration
runs with a step size of at least `B` its rate is not above the target, and whenever it runs with one of at most
`b` its rate is not below.  Then the mean acceptance rate converges to the target. -/
theorem C88_self_regulating (k : ℕ) (hk : (k = 0 ∧ cfg.massCollect ≤ 1) ∨ k + 1 = cfg.massCollect) (b B : ℝ)
    (hb0 : 0 < b) (hB0 : 0 < B)
    (hB : ∀ n, B ≤ (s (k + n + 1)).stepSize →
      (∑ c, (info (k + n + 1)).acceptanceRate c) / Fintype.card C ≤ cfg.tuner.delta)
    (hb : ∀ n, (s (k + n + 1)).stepSize ≤ b →
      cfg.tuner.delta ≤ (∑ c, (info (k + n + 1)).acceptanceRate c) / Fintype.card C) :
    (∃ lo hi, 0 < lo ∧ ∀ n, lo ≤ (s (k + n + 1)).stepSize ∧ (s (k + n + 1)).stepSize ≤ hi) ∧
    Tendsto (fun n : ℕ => (∑ i ∈ Finset.range (n + 1), (∑ c, (info (k + i)).acceptanceRate c) / Fintype.card C) /
      ((n + 1 : ℕ) : ℝ)) atTop (nhds cfg.tuner.delta) := by
  have hl := log_step cfg h1 ht0 logPost grad feed h2 z u s info hs ht k hk
  have hp := step_pos cfg h1 ht0 logPost grad feed h2 z u s info hs ht k hk
  have hr : ∀ i, 0 ≤ avg (info (k + i)).acceptanceRate ∧ avg (info (k + i)).acceptanceRate ≤ 1 := fun i =>
    avg_range _ fun c => sample_rate cfg logPost grad _ _ _ _ _ _ (hs (k + i)) c
  obtain ⟨lo, hi, hlh⟩ := dual_bounded cfg.tuner.mu cfg.tuner.gamma cfg.tuner.t0 cfg.tuner.delta
    (fun i => avg (info (k + i)).acceptanceRate) hg ht0 (fun i => (hr i).1) (fun i => (hr i).2) (Real.log b) (Real.log B)
    (fun n h => by
      rw [← hl n] at h
      exact hB n ((Real.log_le_log_iff hB0 (hp n)).1 h))
    (fun n h => by
      rw [← hl n] at h
      exact hb n ((Real.log_le_log_iff (hp n) hb0).1 h))
  have hbd : ∀ n, Real.exp lo ≤ (s (k + n + 1)).stepSize ∧ (s (k + n + 1)).stepSize ≤ Real.exp hi := by
    intro n
    obtain ⟨x1, x2⟩ := hlh (n + 1)
    rw [← hl n] at x1 x2
    exact ⟨(Real.le_log_iff_exp_le (hp n)).1 x1, (Real.log_le_iff_le_exp (hp n)).1 x2⟩
  exact ⟨⟨Real.exp lo, Real.exp hi, Real.exp_pos lo, hbd⟩,
    C88_target cfg h1 ht0 hg logPost grad feed h2 z u s info hs ht k hk (Real.exp lo) (Real.exp hi) (Real.exp_pos lo) hbd⟩

include h1 ht0 h2 hs ht in
/-- **C88.** The step size used when the adaptation is switched off afterwards (`exp log_epsilon_bar`) lies between
the smallest and the largest step size since the last restart. -/
theorem C88_final_step (hkap : 0 ≤ cfg.tuner.kappa) (k : ℕ) (hk : k = 0 ∨ k + 1 = cfg.massCollect) (n : ℕ)
    (hn : k + 1 < cfg.massCollect → k + n + 1 < cfg.massCollect) (lo hi : ℝ) (hlo : 0 < lo)
    (hb : ∀ m ≤ n, lo ≤ (s (k + m + 1)).stepSize ∧ (s (k + m + 1)).stepSize ≤ hi)
    (feed' : Feed) (hf : feed'.adaptStep = false) (z' : C → ι → ℝ) (u' : C → ℝ) (s' : State ℝ C ι) (info' : Info ℝ C ι)
    (hs' : sample cfg logPost grad feed' z' u' (s (k + n + 1)) = .ok s' info') :
    lo ≤ s'.stepSize ∧ s'.stepSize ≤ hi := by
  have h := fun m hm => C54_sample cfg h1 ht0 logPost grad feed h2 z u s info hs ht k hk m hm
  have hhi : 0 < hi := by
    obtain ⟨x1, x2⟩ := hb 0 (Nat.zero_le _)
    linarith
  have hbar := bar_between cfg.tuner.mu cfg.tuner.gamma cfg.tuner.t0 cfg.tuner.delta cfg.tuner.kappa
    (fun i => avg (info (k + i)).acceptanceRate) hkap (Real.log lo) (Real.log hi) n fun m hm => by
      obtain ⟨x1, x2⟩ := hb m hm
      rw [(h m (by intro hh; have := hn hh; omega)).1] at x1 x2
      exact ⟨(Real.log_le_iff_le_exp hlo).2 x1, (Real.le_log_iff_exp_le hhi).2 x2⟩
  rw [← (h n hn).2] at hbar
  have e := (sample_tuner cfg logPost grad feed' z' u' _ s' info' hs').2.2 h1
  simp only [Tuner.tune, hf, Bool.false_eq_true, if_false, Prod.mk.injEq] at e
  rw [e.1]
  exact ⟨(Real.log_le_iff_le_exp hlo).1 hbar.1, (Real.le_log_iff_exp_le hhi).1 hbar.2⟩

include h1 ht0 h2 hs ht in
/-- **C88.** If the step sizes since the last restart converge, the step size that will be used after the adaptation
converges to the same limit.  The weights `n ^ (-kappa)` of the average need `kappa` between 0 and 1 (0.75 by
default). -/
theorem C88_limit (hkap : 0 ≤ cfg.tuner.kappa) (hkap1 : cfg.tuner.kappa ≤ 1) (k : ℕ)
    (hk : (k = 0 ∧ cfg.massCollect ≤ 1) ∨ k + 1 = cfg.massCollect) (L : ℝ) (hL : 0 < L)
    (h : Tendsto (fun n => (s n).stepSize) atTop (nhds L)) :
    Tendsto (fun n => Real.exp (s n).tuner.logEpsBar) atTop (nhds L) := by
  have hc : Tendsto (fun n => dualLogStep cfg.tuner.mu cfg.tuner.gamma cfg.tuner.t0
      cfg.tuner.delta (fun i => avg (info (k + i)).acceptanceRate) n) atTop (nhds (Real.log L)) := by
    rw [← tendsto_add_atTop_iff_nat 1]
    have := (h.comp (tendsto_add_atTop_nat (k + 1))).log hL.ne'
    refine this.congr fun n => ?_
    rw [← log_step cfg h1 ht0 logPost grad feed h2 z u s info hs ht k hk n]
    simp only [Function.comp_apply]
    rw [show n + (k + 1) = k + n + 1 by ring]
  have hbar := bar_limit cfg.tuner.mu cfg.tuner.gamma cfg.tuner.t0 cfg.tuner.delta cfg.tuner.kappa
    (fun i => avg (info (k + i)).acceptanceRate) hkap hkap1 (Real.log L) hc
  rw [← tendsto_add_atTop_iff_nat 1] at hbar
  rw [← tendsto_add_atTop_iff_nat (k + 1)]
  have hexp := (Real.continuous_exp.tendsto (Real.log L)).comp hbar
  rw [Real.exp_log hL] at hexp
  refine hexp.congr fun n => ?_
  simp only [Function.comp_apply]
  rw [← (C54_sample cfg h1 ht0 logPost grad feed h2 z u s info hs ht k (by omega) n (by omega)).2,
    show k + n + 1 = n + (k + 1) by ring]

end

/-! ## A concrete run -/

section Example

/-- The default settings with one leapfrog step and no mass adaptation. -/
noncomputable def exCfg : Cfg ℝ :=
  { nLeapfrogs := 1, target := 0.8, tuner := ⟨0.05, 100, 0.75, 0.8, 1⟩, adaptsStep := true, adaptsMass := false,
    massCollect := 0, massDecay := 0.99 }

/-- The acceptance rate of a standard normal from the origin with momentum one. -/
theorem ex_rate (eps : ℝ) (u : Unit → ℝ) (c : Unit) :
    ((transition 1 (fun (q : Unit → Unit → ℝ) c => -q c () ^ 2 / 2) (fun q c i => -q c i) (fun _ => 1) eps
      (fun _ _ => 0) (fun _ _ => 1) u).mh c).rate = Real.exp (min (-(eps ^ 4 / 8)) 0) := by
  simp only [transition, getAcceptanceRate, acceptanceRate, Flt.isFinite, Flt.exp, Flt.minimum, Flt.ofReal, true_and,
    if_true, hamiltonian, leapfrog, leapfrogIntegrator, velocity, List.range_succ, List.range_zero, List.nil_append,
    List.foldl_append, List.foldl_cons, List.foldl_nil, Flt.sum, lt_irrefl, if_false]
  congr 2
  norm_num
  ring

/-- Momenta one and uniform draws equal to the acceptance rate, which reject every proposal. -/
noncomputable def exU (eps : ℝ) : Unit → ℝ := fun _ => Real.exp (min (-(eps ^ 4 / 8)) 0)

theorem ex_trial (eps : ℝ) :
    trialRate (fun (q : Unit → Unit → ℝ) c => -q c () ^ 2 / 2) (fun q c i => -q c i) (fun _ => 1)
      (fun _ _ => 0) (fun _ _ => 1) eps = Real.exp (min (-(eps ^ 4 / 8)) 0) := by
  rw [C56_trial_rate, avg]
  simp only [Finset.univ_unique, Finset.sum_singleton, Fintype.card_unit, Nat.cast_one, div_one]
  have e : ∀ x : ℝ, min 1 (Real.exp x) = Real.exp (min x 0) := by
    intro x
    rcases le_total x 0 with h | h
    · rw [min_eq_left h, min_eq_right (Real.exp_le_one_iff.2 h)]
    · rw [min_eq_right h, Real.exp_zero, min_eq_left (Real.one_le_exp h)]
  rw [e]
  congr 2
  norm_num
  ring

/-- One iteration of the example. -/
theorem ex_step (s : State ℝ Unit Unit) (hq : s.q = fun _ _ => 0) (he : s.t = 0 → s.stepSize = 1) :
    ∃ u s' info, sample exCfg (fun (q : Unit → Unit → ℝ) c => -q c () ^ 2 / 2) (fun q c i => -q c i) ⟨true, true⟩
      (fun _ _ => 1) u s = .ok s' info ∧ (∀ c, 0 ≤ u c ∧ u c ≤ 1) ∧ s'.q = (fun _ _ => 0) ∧ s'.t = s.t + 1 ∧
      (s.t ≠ 0 → info.acceptanceRate = fun _ => Real.exp (min (-(s.stepSize ^ 4 / 8)) 0)) := by
  have hz : randomMomentum (fun (_ _ : Unit) => (1 : ℝ)) (fun _ : Unit => (1 : ℝ)) = fun _ _ => 1 := by
    funext c i; simp [randomMomentum]
  have hm : adaptMass exCfg ⟨true, true⟩ (s.t + 1) s.q s.ewmv = (s.ewmv, fun _ => 1) := by
    simp [adaptMass, exCfg]
  obtain ⟨eps, heps, heps'⟩ : ∃ eps, usedStepSize exCfg (fun (q : Unit → Unit → ℝ) c => -q c () ^ 2 / 2)
      (fun q c i => -q c i) (s.t + 1) (fun _ => 1) s.q (fun _ _ => 1) s.stepSize = some eps ∧
      (s.t ≠ 0 → eps = s.stepSize) := by
    by_cases h0 : s.t = 0
    · have hi : ifInitialize exCfg (s.t + 1) = true := by simp [ifInitialize, h0]
      have hsome : (initStepSize (trialRate (fun (q : Unit → Unit → ℝ) c => -q c () ^ 2 / 2) (fun q c i => -q c i)
          (fun _ => 1) s.q (fun _ _ => 1)) exCfg.target s.stepSize).isSome := by
        rw [C56_terminates_iff _ _ _ (by norm_num [exCfg])]
        refine ⟨2, ?_⟩
        rw [hq, he h0, ex_trial, min_eq_left (by norm_num)]
        have : Real.exp (-((1 * 1.5 ^ 2 : ℝ) ^ 4 / 8)) ≤ 1 / (1 + (1 * 1.5 ^ 2 : ℝ) ^ 4 / 8) := by
          rw [Real.exp_neg, inv_eq_one_div]
          refine one_div_le_one_div_of_le (by positivity) ?_
          linarith [Real.add_one_le_exp ((1 * 1.5 ^ 2 : ℝ) ^ 4 / 8)]
        refine lt_of_le_of_lt this ?_
        norm_num [exCfg]
      obtain ⟨e, he'⟩ := Option.isSome_iff_exists.1 hsome
      refine ⟨e, ?_, fun h => absurd h0 h⟩
      simp only [usedStepSize, hi, if_true]
      rw [if_pos (by rfl)]
      exact he'
    · refine ⟨s.stepSize, ?_, fun _ => rfl⟩
      have hi : ifInitialize exCfg (s.t + 1) = false := by simp [ifInitialize, exCfg, h0]
      simp [usedStepSize, hi]
  have hmin : Real.exp (min (-(eps ^ 4 / 8)) 0) ≤ 1 := Real.exp_le_one_iff.2 (min_le_right _ _)
  have hres : ∃ s' info, sample exCfg (fun (q : Unit → Unit → ℝ) c => -q c () ^ 2 / 2) (fun q c i => -q c i) ⟨true, true⟩
      (fun _ _ => 1) (exU eps) s = .ok s' info ∧ s'.q = (transition 1 (fun (q : Unit → Unit → ℝ) c => -q c () ^ 2 / 2)
        (fun q c i => -q c i) (fun _ => 1) eps s.q (fun _ _ => 1) (exU eps)).newQ ∧ s'.t = s.t + 1 ∧
        info.acceptanceRate = fun c => ((transition 1 (fun (q : Unit → Unit → ℝ) c => -q c () ^ 2 / 2)
        (fun q c i => -q c i) (fun _ => 1) eps s.q (fun _ _ => 1) (exU eps)).mh c).rate := by
    simp only [sample, hm, hz, heps, if_pos (allFinite _)]
    exact ⟨_, _, rfl, rfl, rfl, rfl⟩
  obtain ⟨s', info, hr, hr1, hr2, hr3⟩ := hres
  refine ⟨exU eps, s', info, hr, fun c => ⟨(Real.exp_pos _).le, hmin⟩, ?_, hr2, fun h0 => ?_⟩
  · rw [hr1, hq]
    funext c i
    have hrate := ex_rate eps (exU eps) c
    exact if_neg (not_lt.2 (le_of_eq hrate) : ¬exU eps c < _)
  · rw [hr3, hq, ← heps' h0]
    funext c
    exact ex_rate eps (exU eps) c

/-- An infinite run whose mean acceptance rate converges to the target 0.8. -/
example : ∃ (u : ℕ → Unit → ℝ) (s : ℕ → State ℝ Unit Unit) (info : ℕ → Info ℝ Unit Unit),
    (∀ k, sample exCfg (fun q c => -q c () ^ 2 / 2) (fun q c i => -q c i) ⟨true, true⟩ (fun _ _ => 1) (u k) (s k) =
      .ok (s (k + 1)) (info k)) ∧
    Tendsto (fun n : ℕ => (∑ i ∈ Finset.range (n + 1), (∑ c, (info (0 + i)).acceptanceRate c) / Fintype.card Unit) /
      ((n + 1 : ℕ) : ℝ)) atTop (nhds 0.8) := by
  let s0 : State ℝ Unit Unit := ⟨fun _ _ => 0, 0, 1, Tuner.init, Ewmv.init⟩
  let P : State ℝ Unit Unit → Prop := fun s => s.q = (fun _ _ => 0) ∧ (s.t = 0 → s.stepSize = 1)
  have hnext : ∀ s : {s // P s}, ∃ (s' : {s // P s}) (u : Unit → ℝ) (info : Info ℝ Unit Unit),
      sample exCfg (fun q c => -q c () ^ 2 / 2) (fun q c i => -q c i) ⟨true, true⟩ (fun _ _ => 1) u s.1 =
        .ok s'.1 info ∧ s'.1.t = s.1.t + 1 ∧
      (s.1.t ≠ 0 → info.acceptanceRate = fun _ => Real.exp (min (-(s.1.stepSize ^ 4 / 8)) 0)) := by
    rintro ⟨s, hq, he⟩
    obtain ⟨u, s', info, h, _, h1, h2, h3⟩ := ex_step s hq he
    exact ⟨⟨s', h1, fun h0 => by omega⟩, u, info, h, h2, h3⟩
  choose nx U I hn ht hr using hnext
  let s : ℕ → {s // P s} := fun n => nx^[n] ⟨s0, rfl, fun _ => rfl⟩
  have hs : ∀ k, s (k + 1) = nx (s k) := fun k => Function.iterate_succ_apply' _ _ _
  have htt : ∀ k, (s k).1.t = k := by
    intro k
    induction k with
    | zero => rfl
    | succ k ih => rw [hs, ht, ih]
  have hrun : ∀ k, sample exCfg (fun q c => -q c () ^ 2 / 2) (fun q c i => -q c i) ⟨true, true⟩ (fun _ _ => 1)
      (U (s k)) (s k).1 = .ok (s (k + 1)).1 (I (s k)) := fun k => by rw [hs]; exact hn (s k)
  have hacc : ∀ n, (∑ c, (I (s (n + 1))).acceptanceRate c) / (Fintype.card Unit : ℝ) =
      Real.exp (min (-((s (n + 1)).1.stepSize ^ 4 / 8)) 0) := by
    intro n
    rw [hr _ (by rw [htt]; omega)]
    simp
  refine ⟨fun k => U (s k), fun k => (s k).1, fun k => I (s k), hrun, ?_⟩
  refine (C88_self_regulating exCfg rfl (by norm_num [exCfg]) (by norm_num [exCfg]) _ _ (fun _ => ⟨true, true⟩)
    (fun _ => rfl) (fun _ _ _ => 1) (fun k => U (s k)) (fun k => (s k).1) (fun k => I (s k)) hrun (htt 0) 0
    (Or.inl ⟨rfl, by norm_num [exCfg]⟩) 0.5 2 (by norm_num) (by norm_num) (fun n h => ?_) (fun n h => ?_)).2
  · simp only [Nat.zero_add] at h ⊢
    rw [hacc]
    have h4 : (2 : ℝ) ^ 4 ≤ (s (n + 1)).1.stepSize ^ 4 := pow_le_pow_left₀ (by norm_num) h 4
    have h5 : Real.exp (min (-((s (n + 1)).1.stepSize ^ 4 / 8)) 0) ≤ Real.exp (-2) :=
      Real.exp_le_exp.2 ((min_le_left _ _).trans (by linarith))
    have h6 : Real.exp (-2) ≤ 1 / 3 := by
      rw [Real.exp_neg, inv_eq_one_div]
      exact one_div_le_one_div_of_le (by norm_num) (by linarith [Real.add_one_le_exp (2 : ℝ)])
    have : exCfg.tuner.delta = 0.8 := rfl
    rw [this]
    norm_num at h6 ⊢
    linarith
  · simp only [Nat.zero_add] at h ⊢
    rw [hacc]
    have hp := step_pos exCfg rfl (by norm_num [exCfg]) _ _ (fun _ => ⟨true, true⟩)
      (fun _ => rfl) (fun _ _ _ => 1) (fun k => U (s k)) (fun k => (s k).1) (fun k => I (s k)) hrun (htt 0) 0
      (Or.inl ⟨rfl, by norm_num [exCfg]⟩) n
    simp only [Nat.zero_add] at hp
    have h4 : (s (n + 1)).1.stepSize ^ 4 ≤ 0.5 ^ 4 := pow_le_pow_left₀ hp.le h 4
    have h5 : Real.exp (-(0.5 ^ 4 / 8)) ≤ Real.exp (min (-((s (n + 1)).1.stepSize ^ 4 / 8)) 0) := by
      refine Real.exp_le_exp.2 (le_min (by linarith) (by norm_num))
    have h6 := Real.add_one_le_exp (-((0.5 : ℝ) ^ 4 / 8))
    have : exCfg.tuner.delta = 0.8 := rfl
    rw [this]
    exact (show (0.8 : ℝ) ≤ -((0.5 : ℝ) ^ 4 / 8) + 1 by norm_num).trans (h6.trans h5)

end Example

end ZhuSuan.Hmc
