import Mathlib.Algebra.BigOperators.Field
import Mathlib.Algebra.Field.GeomSum
import Verif.Spec.Hmc
import Verif.Props.HmcNumeric

/-!
# C54–C57  Adaptation of step size and mass
-/

set_option autoImplicit false

namespace ZhuSuan.Hmc

variable {C ι : Type} [Fintype C] [Fintype ι]

/-! ## C54 -/

/-- C54.  The tuner follows dual averaging, from a fresh start in any state: after `n + 1` acceptance rates
its step size is `exp` of the dual averaging log step, and the averaged iterate is kept in
`log_epsilon_bar`. -/
theorem C54_dual_averaging (cfg : TunerCfg ℝ) (ht0 : 0 ≤ cfg.t0) (a : ℕ → ℝ) (s : ℕ → Tuner ℝ) (eps : ℕ → ℝ)
    (h0 : (eps 1, s 1) = (s 0).tune cfg true (a 0) true)
    (h : ∀ n, (eps (n + 2), s (n + 2)) = (s (n + 1)).tune cfg true (a (n + 1)) false) (n : ℕ) :
    eps (n + 1) = Real.exp (dualLogStep cfg.mu cfg.gamma cfg.t0 cfg.delta a (n + 1)) ∧
    (s (n + 1)).logEpsBar = dualLogStepBar cfg.mu cfg.gamma cfg.t0 cfg.delta cfg.kappa a (n + 1) := by
  have key : eps (n + 1) = Real.exp (dualLogStep cfg.mu cfg.gamma cfg.t0 cfg.delta a (n + 1)) ∧
      (s (n + 1)).logEpsBar = dualLogStepBar cfg.mu cfg.gamma cfg.t0 cfg.delta cfg.kappa a (n + 1) ∧
      (s (n + 1)).step = n + 1 ∧
      (s (n + 1)).hBar = (∑ i ∈ Finset.range (n + 1), (cfg.delta - a i)) / ((n + 1 : ℕ) + cfg.t0) := by
    induction n with
    | zero =>
      rw [Prod.mk.injEq] at h0
      obtain ⟨h1, h2⟩ := h0
      rw [h2, h1]
      refine ⟨?_, ?_, ?_, ?_⟩
      · simp [Tuner.tune, dualLogStep]
        ring_nf
        simp
      · simp [Tuner.tune, dualLogStep, dualLogStepBar]
        ring_nf
        simp
      · simp [Tuner.tune]
      · simp [Tuner.tune]
        ring
    | succ n ih =>
      obtain ⟨_, i2, i3, i4⟩ := ih
      have h := h n
      rw [Prod.mk.injEq] at h
      obtain ⟨h1, h2⟩ := h
      have hpos : (0 : ℝ) < (n : ℝ) + 1 + 1 + cfg.t0 := by positivity
      have hpos' : (0 : ℝ) < (n : ℝ) + 1 + cfg.t0 := by positivity
      have hh : (s (n + 2)).hBar =
          (∑ i ∈ Finset.range (n + 2), (cfg.delta - a i)) / ((n + 2 : ℕ) + cfg.t0) := by
        rw [h2]
        simp only [Tuner.tune, if_true, Bool.false_eq_true, if_false, flt_ofReal, sub_zero, one_mul]
        rw [i3, i4, Finset.sum_range_succ (n := n + 1)]
        push_cast
        field_simp
        ring
      have hs : (s (n + 2)).step = ((n + 2 : ℕ) : ℝ) := by
        rw [h2]
        simp only [Tuner.tune, if_true, Bool.false_eq_true, if_false, flt_ofReal, sub_zero, one_mul]
        rw [i3]
        push_cast
        ring
      have e1 : eps (n + 2) = Real.exp (cfg.mu - Real.sqrt (s (n + 2)).step / cfg.gamma *
          (s (n + 2)).hBar) := by
        rw [h1, h2]
        simp only [Tuner.tune, if_true]
        rfl
      have e2 : (s (n + 2)).logEpsBar = (s (n + 2)).step ^ (-cfg.kappa) *
          (cfg.mu - Real.sqrt (s (n + 2)).step / cfg.gamma * (s (n + 2)).hBar) +
          (1 - (s (n + 2)).step ^ (-cfg.kappa)) * (s (n + 1)).logEpsBar := by
        rw [h2]
        simp only [Tuner.tune, if_true, Bool.false_eq_true, if_false, flt_ofReal, sub_zero, one_mul]
        rfl
      refine ⟨?_, ?_, ?_, ?_⟩
      · rw [e1, hs, hh]
        rfl
      · rw [e2, hs, hh, i2]
        rfl
      · rw [hs]; push_cast; ring
      · exact hh
  exact ⟨key.1, key.2.1⟩

/-- What an iteration that finishes does to the step size. -/
theorem sample_tuner (cfg : Cfg ℝ) (logPost : (C → ι → ℝ) → C → ℝ) (grad : (C → ι → ℝ) → C → ι → ℝ)
    (feed : Feed) (z : C → ι → ℝ) (u : C → ℝ) (s s' : State ℝ C ι) (info : Info ℝ C ι)
    (h : sample cfg logPost grad feed z u s = .ok s' info) :
    s'.t = (if cfg.adaptsStep || cfg.adaptsMass then s.t + 1 else s.t) ∧
    (cfg.adaptsStep = false → s'.stepSize = s.stepSize ∧ s'.tuner = s.tuner) ∧
    (cfg.adaptsStep = true → (s'.stepSize, s'.tuner) =
      s.tuner.tune cfg.tuner feed.adaptStep (avg info.acceptanceRate) (ifInitialize cfg (s.t + 1))) := by
  simp only [sample] at h
  split at h
  · exact absurd h (by simp)
  · rw [if_pos (allFinite _)] at h
    simp only [Outcome.ok.injEq] at h
    obtain ⟨rfl, rfl⟩ := h
    refine ⟨rfl, fun h1 => ?_, fun h1 => ?_⟩
    · simp [h1]
    · simp only [h1, if_true]
      rfl

/-- C54.  For whole iterations: in a run with adaptation on, the step size after each iteration since the
last restart is that of dual averaging on the mean acceptance rates of those iterations, and `log_epsilon_bar` is its
averaged iterate.  Restarts happen at
the first iteration and at `mass_collect_iters`. -/
theorem C54_sample (cfg : Cfg ℝ) (h1 : cfg.adaptsStep = true) (ht0 : 0 ≤ cfg.tuner.t0)
    (logPost : (C → ι → ℝ) → C → ℝ) (grad : (C → ι → ℝ) → C → ι → ℝ) (feed : ℕ → Feed)
    (h2 : ∀ k, (feed k).adaptStep = true) (z : ℕ → C → ι → ℝ) (u : ℕ → C → ℝ)
    (s : ℕ → State ℝ C ι) (info : ℕ → Info ℝ C ι)
    (hs : ∀ k, sample cfg logPost grad (feed k) (z k) (u k) (s k) = .ok (s (k + 1)) (info k))
    (ht : (s 0).t = 0) (k : ℕ) (hk : k = 0 ∨ k + 1 = cfg.massCollect) (n : ℕ)
    (hn : k + 1 < cfg.massCollect → k + n + 1 < cfg.massCollect) :
    (s (k + n + 1)).stepSize = Real.exp (dualLogStep cfg.tuner.mu cfg.tuner.gamma cfg.tuner.t0
      cfg.tuner.delta (fun i => avg (info (k + i)).acceptanceRate) (n + 1)) ∧
    (s (k + n + 1)).tuner.logEpsBar = dualLogStepBar cfg.tuner.mu cfg.tuner.gamma cfg.tuner.t0
      cfg.tuner.delta cfg.tuner.kappa (fun i => avg (info (k + i)).acceptanceRate) (n + 1) := by
  have ht' : ∀ m, (s m).t = m := by
    intro m
    induction m with
    | zero => exact ht
    | succ m ih => rw [(sample_tuner cfg logPost grad _ _ _ _ _ _ (hs m)).1, ih]; simp [h1]
  have hstep : ∀ m, ((s (m + 1)).stepSize, (s (m + 1)).tuner) = (s m).tuner.tune cfg.tuner true
      (avg (info m).acceptanceRate) (ifInitialize cfg (m + 1)) := by
    intro m
    have := (sample_tuner cfg logPost grad _ _ _ _ _ _ (hs m)).2.2 h1
    rwa [h2, ht'] at this
  -- the tuner states of the window, continued arbitrarily after it
  let nx : ℕ → ℝ × Tuner ℝ := fun j => Nat.rec ((s k).stepSize, (s k).tuner)
    (fun j r => r.2.tune cfg.tuner true (avg (info (k + j)).acceptanceRate) (j == 0)) j
  have hnx : ∀ j, j ≤ n + 1 → nx j = ((s (k + j)).stepSize, (s (k + j)).tuner) := by
    intro j
    induction j with
    | zero => intro _; rfl
    | succ j ih =>
      intro hj
      have e : nx (j + 1) = (nx j).2.tune cfg.tuner true (avg (info (k + j)).acceptanceRate) (j == 0) := rfl
      rw [e, ih (by omega), show k + (j + 1) = k + j + 1 by ring, hstep (k + j)]
      congr 1
      simp only [ifInitialize]
      rcases Nat.eq_zero_or_pos j with hj0 | hj0
      · subst hj0
        rcases hk with hk | hk <;> simp [hk]
      · have n1 : (j == 0) = false := by simp; omega
        have n2 : (k + j + 1 == 1) = false := by simp; omega
        have n3 : (k + j + 1 == cfg.massCollect) = false := by
          simp only [beq_eq_false_iff_ne, ne_eq]
          intro heq
          rcases hk with hk | hk
          · have := hn (by omega); omega
          · omega
        rw [n1, n2, n3]
        rfl
  have hda := C54_dual_averaging cfg.tuner ht0 (fun i => avg (info (k + i)).acceptanceRate)
    (fun j => (nx j).2) (fun j => (nx j).1) rfl (fun j => rfl) n
  rw [hnx (n + 1) le_rfl] at hda
  exact hda

/-- C54.  Without the `adapt_step_size` argument the step size never changes. -/
theorem C54_none (cfg : Cfg ℝ) (h1 : cfg.adaptsStep = false)
    (logPost : (C → ι → ℝ) → C → ℝ) (grad : (C → ι → ℝ) → C → ι → ℝ) (feed : Feed) (z : C → ι → ℝ)
    (u : C → ℝ) (s s' : State ℝ C ι) (info : Info ℝ C ι)
    (hs : sample cfg logPost grad feed z u s = .ok s' info) : s'.stepSize = s.stepSize :=
  ((sample_tuner cfg logPost grad feed z u s s' info hs).2.1 h1).1

/-- C54.  The step size stays positive. -/
theorem C54_positive (cfg : Cfg ℝ) (logPost : (C → ι → ℝ) → C → ℝ) (grad : (C → ι → ℝ) → C → ι → ℝ)
    (feed : Feed) (z : C → ι → ℝ) (u : C → ℝ) (s s' : State ℝ C ι) (info : Info ℝ C ι)
    (hs : sample cfg logPost grad feed z u s = .ok s' info) (h : 0 < s.stepSize) : 0 < s'.stepSize := by
  have ht := sample_tuner cfg logPost grad feed z u s s' info hs
  cases h1 : cfg.adaptsStep with
  | false => rw [(ht.2.1 h1).1]; exact h
  | true =>
    have e := congrArg Prod.fst (ht.2.2 h1)
    simp only at e
    rw [e]
    simp only [Tuner.tune]
    split <;> exact Real.exp_pos _

/-- C54, partial: with adaptation switched off the step size is `exp log_epsilon_bar`, so it does not change
from one such iteration to the next.  Missing from the documented property: it may change at the first of
them (see `C54_off_overwrites`). -/
theorem C54_off_partial (cfg : Cfg ℝ) (h1 : cfg.adaptsStep = true)
    (logPost : (C → ι → ℝ) → C → ℝ) (grad : (C → ι → ℝ) → C → ι → ℝ) (feed feed' : Feed)
    (h2 : feed.adaptStep = false) (h2' : feed'.adaptStep = false) (z z' : C → ι → ℝ) (u u' : C → ℝ)
    (s s' s'' : State ℝ C ι) (info info' : Info ℝ C ι)
    (hs : sample cfg logPost grad feed z u s = .ok s' info)
    (hs' : sample cfg logPost grad feed' z' u' s' = .ok s'' info') :
    s'.stepSize = Real.exp s.tuner.logEpsBar ∧ s''.stepSize = s'.stepSize := by
  have e := (sample_tuner cfg logPost grad feed z u s s' info hs).2.2 h1
  have e' := (sample_tuner cfg logPost grad feed' z' u' s' s'' info' hs').2.2 h1
  simp only [Tuner.tune, h2, h2', Bool.false_eq_true, if_false, Prod.mk.injEq] at e e'
  refine ⟨e.1, ?_⟩
  rw [e'.1, e.1, e.2]

/-- C54, finding.  Passing `adapt_step_size` with the value False from the start overwrites the user's step
size: after every iteration it is `exp 0 = 1`. -/
theorem C54_off_overwrites (cfg : Cfg ℝ) (h1 : cfg.adaptsStep = true)
    (logPost : (C → ι → ℝ) → C → ℝ) (grad : (C → ι → ℝ) → C → ι → ℝ) (feed : ℕ → Feed)
    (h2 : ∀ k, (feed k).adaptStep = false) (z : ℕ → C → ι → ℝ) (u : ℕ → C → ℝ)
    (s : ℕ → State ℝ C ι) (info : ℕ → Info ℝ C ι)
    (hs : ∀ k, sample cfg logPost grad (feed k) (z k) (u k) (s k) = .ok (s (k + 1)) (info k))
    (ht : (s 0).tuner = Tuner.init) (n : ℕ) : (s (n + 1)).stepSize = 1 := by
  have e : ∀ k, (s (k + 1)).stepSize = Real.exp (s k).tuner.logEpsBar ∧ (s (k + 1)).tuner = (s k).tuner := by
    intro k
    have := (sample_tuner cfg logPost grad _ _ _ _ _ _ (hs k)).2.2 h1
    simp only [Tuner.tune, h2, Bool.false_eq_true, if_false, Prod.mk.injEq] at this
    exact this
  have e' : ∀ k, (s k).tuner = Tuner.init := by
    intro k
    induction k with
    | zero => exact ht
    | succ k ih => rw [(e k).2, ih]
  rw [(e n).1, e' n]
  simp [Tuner.init]

/-- C54, finding.  The point towards which the step size is shrunk is `exp (10 * step_size)`, not the
`10 * step_size` of Hoffman & Gelman (`mu` is not passed through the logarithm): if every acceptance rate
equals the target, this is the step size. -/
theorem C54_shrinkage_point (cfg : TunerCfg ℝ) (ht0 : 0 ≤ cfg.t0) (a : ℕ → ℝ) (ha : ∀ i, a i = cfg.delta)
    (s : ℕ → Tuner ℝ) (eps : ℕ → ℝ) (h0 : (eps 1, s 1) = (s 0).tune cfg true (a 0) true)
    (h : ∀ n, (eps (n + 2), s (n + 2)) = (s (n + 1)).tune cfg true (a (n + 1)) false) (n : ℕ) :
    eps (n + 1) = Real.exp (10 * cfg.initial) ∧ eps (n + 1) ≠ 10 * cfg.initial := by
  have e : eps (n + 1) = Real.exp (10 * cfg.initial) := by
    rw [(C54_dual_averaging cfg ht0 a s eps h0 h n).1]
    simp [dualLogStep, ha, TunerCfg.mu]
  refine ⟨e, fun h' => ?_⟩
  rw [e] at h'
  have := Real.add_one_le_exp (10 * cfg.initial)
  linarith

/-! ## C56 -/

/-- C56.  How the search behaves when the target is at most one (`last` starts at 1): the step size grows by
1.5 as long as the rate is not below the target. -/
theorem searchIter_up (rate : ℝ → ℝ) (target initial : ℝ) (h1 : target ≤ 1) :
    ∀ k, (∀ j < k, ¬rate (initial * 1.5 ^ j) < target) →
      (searchIter rate target initial k).stepSize = initial * 1.5 ^ k ∧
      ¬(searchIter rate target initial k).last < target ∧ (searchIter rate target initial k).cond = true := by
  intro k
  induction k with
  | zero => intro _; simp [searchIter, h1]
  | succ k ih =>
    intro hk
    obtain ⟨i1, i2, _⟩ := ih fun j hj => hk j (by omega)
    have hr := hk k (by omega)
    have e : searchIter rate target initial (k + 1) =
        searchBody rate target (searchIter rate target initial k) :=
      Function.iterate_succ_apply' _ _ _
    rw [e]
    simp only [searchBody, i1, flt_lt, if_neg hr]
    refine ⟨?_, hr, ?_⟩
    · rw [pow_succ, flt_ofReal]; ring
    · simp only [decide_eq_false i2, decide_eq_false hr]
      rfl

/-- C56.  What the search measures: at step size `eps` the mean over chains of the acceptance probability of
one leapfrog step from `(q, p)`: half a kick, a drift, half a kick, and the change of energy between the two
ends. -/
theorem C56_trial_rate {C ι : Type} [Fintype C] [Fintype ι] (logPost : (C → ι → ℝ) → C → ℝ)
    (grad : (C → ι → ℝ) → C → ι → ℝ) (mass : ι → ℝ) (q p : C → ι → ℝ) (eps : ℝ) :
    let energy := fun (q p : C → ι → ℝ) c => -logPost q c + (∑ i, p c i ^ 2 / mass i) / 2
    let pHalf := fun c i => p c i + eps / 2 * grad q c i
    let q' := fun c i => q c i + eps * (pHalf c i / mass i)
    let p' := fun c i => pHalf c i + eps / 2 * grad q' c i
    trialRate logPost grad mass q p eps =
      avg fun c => min 1 (Real.exp (energy q p c - energy q' p' c)) := by
  intro energy pHalf q' p'
  have e1 : ∀ (l : ℝ) (p : ι → ℝ), (hamiltonian l p mass).1 = -l + (∑ i, p i ^ 2 / mass i) / 2 := by
    intro l p
    simp only [hamiltonian, Flt.sum, Flt.ofReal, pow_two]
    ring
  have eq0 : (fun c i => q c i + 0 * velocity mass p c i) = q := by
    funext c i; ring
  have eq1 : (leapfrogIntegrator mass grad eps (eps / 2)
      (leapfrogIntegrator mass grad 0 (eps / 2) (q, p))) = (q', p') := by
    simp only [leapfrogIntegrator, eq0]
    rfl
  have er : ∀ a b l : ℝ, acceptanceRate a b l = min 1 (Real.exp (a - b)) := by
    intro a b l
    simp only [acceptanceRate, Flt.isFinite, Flt.exp, Flt.minimum, Flt.ofReal, true_and, if_true]
    rcases le_total (-b + a) 0 with h | h
    · rw [min_eq_left h, min_eq_right (Real.exp_le_one_iff.2 (by linarith))]
      congr 1; ring
    · rw [min_eq_right h, Real.exp_zero, min_eq_left (Real.one_le_exp (by linarith))]
  show chainMean _ = avg _
  simp only [chainMean, avg, Flt.sum, Flt.ofReal, getAcceptanceRate, er, e1]
  rw [eq1]

/-- C56.  If the mean acceptance rate falls below the target at some step size `initial * 1.5 ^ m`, the
search ends, and its result is one factor 1.5 below the first such step size. -/
theorem C56_result (rate : ℝ → ℝ) (target initial : ℝ) (h1 : target ≤ 1) (m : ℕ)
    (hm : rate (initial * 1.5 ^ m) < target) (hfirst : ∀ j < m, ¬rate (initial * 1.5 ^ j) < target) :
    initStepSize rate target initial = some (initial * 1.5 ^ m / 1.5) := by
  have hup := searchIter_up rate target initial h1
  obtain ⟨i1, i2, i3⟩ := hup m hfirst
  have e : searchIter rate target initial (m + 1) =
      searchBody rate target (searchIter rate target initial m) :=
    Function.iterate_succ_apply' _ _ _
  have hstop : (searchIter rate target initial (m + 1)).cond = false := by
    rw [e]
    simp only [searchBody, i1, flt_lt, decide_eq_true hm, decide_eq_false i2]
    rfl
  have hex : ∃ k, (searchIter rate target initial k).cond = false := ⟨m + 1, hstop⟩
  have hfind : Nat.find hex = m + 1 := by
    rw [Nat.find_eq_iff]
    refine ⟨hstop, fun k hk => ?_⟩
    rw [(hup k fun j hj => hfirst j (by omega)).2.2]
    simp
  rw [initStepSize, dif_pos hex]
  rw [hfind, e]
  simp only [searchBody, i1, flt_lt, if_pos hm, flt_ofReal]
  congr 1
  ring

/-- C56.  Termination: the search ends if and only if the rate falls below the target somewhere on
`initial * 1.5 ^ k`. -/
theorem C56_terminates_iff (rate : ℝ → ℝ) (target initial : ℝ) (h1 : target ≤ 1) :
    (initStepSize rate target initial).isSome ↔ ∃ m : ℕ, rate (initial * 1.5 ^ m) < target := by
  classical
  constructor
  · intro h
    by_contra hno
    push Not at hno
    have hup := searchIter_up rate target initial h1
    have : ¬∃ k, (searchIter rate target initial k).cond = false := by
      rintro ⟨k, hk⟩
      rw [(hup k fun j _ => (hno j).not_gt).2.2] at hk
      exact absurd hk (by simp)
    rw [initStepSize, dif_neg this] at h
    exact absurd h (by simp)
  · intro h
    rw [C56_result rate target initial h1 (Nat.find h) (Nat.find_spec h) fun j hj => Nat.find_min h hj]
    rfl

/-- C56.  For any target, the result is `initial * 1.5 ^ k` for an integer `k`; so it is positive if
`initial` is. -/
theorem C56_form (rate : ℝ → ℝ) (target initial r : ℝ) (h : initStepSize rate target initial = some r) :
    (∃ k : ℤ, r = initial * 1.5 ^ k) ∧ (0 < initial → 0 < r) := by
  have key : ∀ j, ∃ k : ℤ, (searchIter rate target initial j).stepSize = initial * 1.5 ^ k := by
    intro j
    induction j with
    | zero => exact ⟨0, by simp [searchIter]⟩
    | succ j ih =>
      obtain ⟨k, hk⟩ := ih
      have e : searchIter rate target initial (j + 1) =
          searchBody rate target (searchIter rate target initial j) :=
        Function.iterate_succ_apply' _ _ _
      have h15 : (1.5 : ℝ) ≠ 0 := by norm_num
      rw [e]
      simp only [searchBody, hk]
      split
      · exact ⟨k - 1, by rw [zpow_sub₀ h15]; simp; ring⟩
      · exact ⟨k + 1, by rw [zpow_add₀ h15]; simp; ring⟩
  have h2 : ∃ k : ℤ, r = initial * 1.5 ^ k := by
    simp only [initStepSize] at h
    split at h
    · rename_i hex
      obtain ⟨k, hk⟩ := key (Nat.find hex)
      rw [Option.some.injEq] at h
      exact ⟨k, h ▸ hk⟩
    · exact absurd h (by simp)
  refine ⟨h2, fun hp => ?_⟩
  obtain ⟨k, rfl⟩ := h2
  have : (0 : ℝ) < 1.5 := by norm_num
  positivity

/-- C56, finding.  The search only goes up: if the rate at the initial step size is already below the target
it divides by 1.5 once and stops, however low the rate still is. -/
theorem C56_no_search_down (rate : ℝ → ℝ) (target initial : ℝ) (h1 : target ≤ 1)
    (h : rate initial < target) : initStepSize rate target initial = some (initial / 1.5) := by
  have := C56_result rate target initial h1 0 (by simpa using h) (by simp)
  simpa using this

/-- C56, finding.  With a target above one it never ends (every rate is at most one). -/
theorem C56_target_above_one (rate : ℝ → ℝ) (target initial : ℝ) (h1 : 1 < target)
    (hr : ∀ e, rate e ≤ 1) : initStepSize rate target initial = none := by
  have key : ∀ k, (searchIter rate target initial k).last < target ∧
      (searchIter rate target initial k).cond = true := by
    intro k
    induction k with
    | zero => simp [searchIter, h1]
    | succ k ih =>
      have e : searchIter rate target initial (k + 1) =
          searchBody rate target (searchIter rate target initial k) :=
        Function.iterate_succ_apply' _ _ _
      have hlt : rate (searchIter rate target initial k).stepSize < target := (hr _).trans_lt h1
      rw [e]
      simp only [searchBody, flt_lt, decide_eq_true hlt, decide_eq_true ih.1]
      exact ⟨hlt, rfl⟩
  rw [initStepSize, dif_neg]
  rintro ⟨k, hk⟩
  rw [(key k).2] at hk
  exact absurd hk (by simp)

/-- A concrete case: the rate `1 / (1 + e)`, target 0.8. -/
example : initStepSize (fun e : ℝ => 1 / (1 + e)) (0.8 : ℝ) (0.2 : ℝ) = some ((0.2 : ℝ) * 1.5 ^ 1 / 1.5) :=
  C56_result _ _ _ (by norm_num) 1 (by norm_num) (by
    intro j hj
    obtain rfl : j = 0 := by omega
    norm_num)

/-! ## C55 -/

theorem avg_weights (d : ℝ) (n : ℕ) (f : ℕ → ℝ) :
    ∑ k ∈ Finset.range (n + 1), d ^ (n + 1 - 1 - k) * f k =
      d * (∑ k ∈ Finset.range n, d ^ (n - 1 - k) * f k) + f n := by
  rw [Finset.sum_range_succ, Finset.mul_sum]
  congr 1
  · refine Finset.sum_congr rfl fun k hk => ?_
    have : n + 1 - 1 - k = n - 1 - k + 1 := by
      have := Finset.mem_range.1 hk
      omega
    rw [this, pow_succ]
    ring
  · simp

theorem weights_succ (d : ℝ) (n : ℕ) :
    ∑ k ∈ Finset.range (n + 1), d ^ (n + 1 - 1 - k) = d * (∑ k ∈ Finset.range n, d ^ (n - 1 - k)) + 1 := by
  have := avg_weights d n fun _ => 1
  simpa using this

theorem weights_pos (d : ℝ) (hd : 0 ≤ d) (n : ℕ) : 0 < ∑ k ∈ Finset.range (n + 1), d ^ (n + 1 - 1 - k) := by
  rw [weights_succ]
  have : 0 ≤ ∑ k ∈ Finset.range n, d ^ (n - 1 - k) := Finset.sum_nonneg fun _ _ => pow_nonneg hd _
  positivity

theorem avg_add (f g : C → ℝ) : avg (fun c => f c + g c) = avg f + avg g := by
  simp [avg, Finset.sum_add_distrib, add_div]

theorem avg_const_mul (r : ℝ) (f : C → ℝ) : avg (fun c => r * f c) = r * avg f := by
  simp [avg, ← Finset.mul_sum, mul_div_assoc]

theorem avg_const [Nonempty C] (r : ℝ) : avg (fun _ : C => r) = r := by
  have : (Fintype.card C : ℝ) ≠ 0 := by exact_mod_cast Fintype.card_ne_zero
  simp [avg, this]

theorem avg_mul_sub [Nonempty C] (f : C → ℝ) (a b : ℝ) :
    avg (fun c => (f c - a) * (f c - b)) = avg (fun c => f c ^ 2) - (a + b) * avg f + a * b := by
  have : (fun c => (f c - a) * (f c - b)) = fun c => (f c ^ 2 + (-(a + b)) * f c) + a * b := by
    funext c; ring
  rw [this, avg_add (fun c => f c ^ 2 + (-(a + b)) * f c) fun _ => a * b,
    avg_add (fun c => f c ^ 2) fun c => (-(a + b)) * f c, avg_const_mul, avg_const]
  ring

theorem chainMean_eq (f : C → ℝ) : chainMean f = avg f := rfl

/-- The weighted variance is the weighted second moment minus the squared mean. -/
theorem ewVar_eq [Nonempty C] (d : ℝ) (hd : 0 ≤ d) (x : ℕ → C → ℝ) (n : ℕ) :
    ewVar d x n = (∑ k ∈ Finset.range n, d ^ (n - 1 - k) * avg fun c => x k c ^ 2) /
      (∑ k ∈ Finset.range n, d ^ (n - 1 - k)) - ewMean d x n ^ 2 := by
  rcases n with _ | n
  · simp [ewVar, ewMean]
  have hS := (weights_pos d hd n).ne'
  have e : ∀ k, d ^ (n + 1 - 1 - k) * avg (fun c => (x k c - ewMean d x (n + 1)) ^ 2) =
      d ^ (n + 1 - 1 - k) * avg (fun c => x k c ^ 2) -
        2 * ewMean d x (n + 1) * (d ^ (n + 1 - 1 - k) * avg (x k)) +
        ewMean d x (n + 1) ^ 2 * d ^ (n + 1 - 1 - k) := by
    intro k
    have := avg_mul_sub (x k) (ewMean d x (n + 1)) (ewMean d x (n + 1))
    simp only [← pow_two] at this
    rw [this]
    ring
  rw [ewVar]
  simp only [e]
  rw [Finset.sum_add_distrib, Finset.sum_sub_distrib, ← Finset.mul_sum, ← Finset.mul_sum]
  set m := ewMean d x (n + 1) with hm
  have hM : ∑ k ∈ Finset.range (n + 1), d ^ (n + 1 - 1 - k) * avg (x k) =
      m * ∑ k ∈ Finset.range (n + 1), d ^ (n + 1 - 1 - k) := by
    rw [hm, ewMean]
    field_simp
  rw [hM]
  field_simp
  ring

/-- C55.  The estimator holds the exponentially weighted mean and variance of the batches it was given. -/
theorem C55_moments [Nonempty C] (d : ℝ) (hd : 0 ≤ d) (hd1 : d < 1) (x : ℕ → C → ι → ℝ) (s : ℕ → Ewmv ℝ ι)
    (h0 : s 0 = Ewmv.init) (hs : ∀ n, s (n + 1) = (s n).update d (x n)) (n : ℕ) (i : ι) :
    (s n).mean i = ewMean d (fun k c => x k c i) n ∧ (s n).var i = ewVar d (fun k c => x k c i) n := by
  have ht : ∀ n, (s n).t = n := by
    intro n
    induction n with
    | zero => rw [h0]; simp [Ewmv.init]
    | succ n ih => rw [hs n]; simp [Ewmv.update, ih]
  have hw : ∀ n : ℕ, (1 - d) / (1 - d ^ ((n : ℝ) + 1)) = 1 / ∑ k ∈ Finset.range (n + 1), d ^ (n + 1 - 1 - k) := by
    intro n
    have e : (d : ℝ) ^ ((n : ℝ) + 1) = d ^ (n + 1) := by
      rw [← Real.rpow_natCast]; push_cast; rfl
    have hg : (∑ k ∈ Finset.range (n + 1), d ^ (n + 1 - 1 - k)) * (1 - d) = 1 - d ^ (n + 1) := by
      rw [Finset.sum_range_reflect (fun k => d ^ k) (n + 1)]
      exact geom_sum_mul_neg d (n + 1)
    rw [e, ← hg]
    have : 1 - d ≠ 0 := by linarith
    have := (weights_pos d hd n).ne'
    field_simp
  induction n with
  | zero => rw [h0]; simp [Ewmv.init, ewMean, ewVar]
  | succ n ih =>
    obtain ⟨i1, i2⟩ := ih
    set y : ℕ → C → ℝ := fun k c => x k c i with hy
    set S := ∑ k ∈ Finset.range n, d ^ (n - 1 - k) with hS
    set S' := ∑ k ∈ Finset.range (n + 1), d ^ (n + 1 - 1 - k) with hS'
    have hSS : S' = d * S + 1 := weights_succ d n
    have hpos : 0 < S' := weights_pos d hd n
    -- weighted sums are the old ones times `d` plus the new batch
    have hfold : ∀ f : ℕ → ℝ, (∑ k ∈ Finset.range (n + 1), d ^ (n + 1 - 1 - k) * f k) / S' =
        (1 - 1 / S') * ((∑ k ∈ Finset.range n, d ^ (n - 1 - k) * f k) / S) + 1 / S' * f n := by
      intro f
      rw [avg_weights]
      rcases Nat.eq_zero_or_pos n with rfl | hn
      · simp [hS, hS']
      · have hSp : 0 < S := by
          obtain ⟨m, rfl⟩ : ∃ m, n = m + 1 := ⟨n - 1, by omega⟩
          exact weights_pos d hd m
        rw [hSS] at hpos ⊢
        field_simp
        ring
    have hmean : ewMean d y (n + 1) = ewMean d y n + 1 / S' * (avg (y n) - ewMean d y n) := by
      have := hfold fun k => avg (y k)
      rw [ewMean, ← hS', this]
      simp only [ewMean, ← hS]
      ring
    have hm' : (s (n + 1)).mean i = ewMean d y (n + 1) := by
      rw [hs n, hmean]
      simp only [Ewmv.update, ht, flt_ofReal, flt_pow, i1, chainMean_eq, hw, ← hS']
      rw [avg_const_mul (1 / S') fun c => x n c i - ewMean d y n]
      congr 2
      have := avg_add (fun c => x n c i) fun _ => -ewMean d y n
      rw [avg_const] at this
      exact this
    refine ⟨hm', ?_⟩
    have hv : (s (n + 1)).var i = (1 - 1 / S') * ewVar d y n +
        avg fun c => 1 / S' * (x n c i - ewMean d y n) * (x n c i - ewMean d y (n + 1)) := by
      rw [← hm', hs n]
      simp only [Ewmv.update, ht, flt_ofReal, flt_pow, i1, i2, chainMean_eq, hw, ← hS']
    have e2 : (fun c => 1 / S' * (x n c i - ewMean d y n) * (x n c i - ewMean d y (n + 1))) =
        fun c => 1 / S' * ((y n c - ewMean d y n) * (y n c - ewMean d y (n + 1))) := by
      funext c; rw [mul_assoc]
    rw [hv, e2, avg_const_mul, avg_mul_sub, ewVar_eq d hd y n, ewVar_eq d hd y (n + 1), ← hS', ← hS,
      hfold fun k => avg fun c => y k c ^ 2, hmean]
    ring

/-- C55.  The weighted variance is nonnegative, and it is zero only if the data are all equal. -/
theorem C55_variance_pos [Nonempty C] (d : ℝ) (hd : 0 < d) (x : ℕ → C → ℝ) (n : ℕ) :
    0 ≤ ewVar d x n ∧
    (0 < ewVar d x n ↔ ∃ j k, j < n ∧ k < n ∧ ∃ a b, x j a ≠ x k b) := by
  have hterm : ∀ k, 0 ≤ d ^ (n - 1 - k) * avg fun c => (x k c - ewMean d x n) ^ 2 := by
    intro k
    refine mul_nonneg (by positivity) ?_
    exact div_nonneg (Finset.sum_nonneg fun _ _ => sq_nonneg _) (by positivity)
  have hnn : 0 ≤ ewVar d x n :=
    div_nonneg (Finset.sum_nonneg fun k _ => hterm k) (Finset.sum_nonneg fun _ _ => by positivity)
  refine ⟨hnn, ?_⟩
  rcases n with _ | n
  · simp [ewVar]
  have hS := weights_pos d hd.le n
  constructor
  · intro hp
    by_contra hno
    push Not at hno
    obtain ⟨c0⟩ := ‹Nonempty C›
    have hall : ∀ k < n + 1, ∀ c, x k c = x 0 c0 := fun k hk c => hno k 0 hk (by omega) c c0
    have : Nonempty C := ⟨c0⟩
    have havg : ∀ k < n + 1, avg (x k) = x 0 c0 := by
      intro k hk
      have : x k = fun _ => x 0 c0 := funext (hall k hk)
      rw [this, avg_const]
    have hm : ewMean d x (n + 1) = x 0 c0 := by
      rw [ewMean, Finset.sum_congr rfl fun k hk => by rw [havg k (Finset.mem_range.1 hk)],
        ← Finset.sum_mul]
      field_simp
    have : ewVar d x (n + 1) = 0 := by
      rw [ewVar, Finset.sum_eq_zero, zero_div]
      intro k hk
      have : (fun c => (x k c - ewMean d x (n + 1)) ^ 2) = fun _ => 0 := by
        funext c
        rw [hm, hall k (Finset.mem_range.1 hk)]
        simp
      rw [this]
      simp [avg]
    linarith
  · rintro ⟨j, k, hj, hk, a, b, hne⟩
    refine lt_of_le_of_ne hnn fun h0 => ?_
    have hsum : ∑ k ∈ Finset.range (n + 1), d ^ (n + 1 - 1 - k) *
        (avg fun c => (x k c - ewMean d x (n + 1)) ^ 2) = 0 := by
      rcases div_eq_zero_iff.1 h0.symm with h | h
      · exact h
      · exact absurd h hS.ne'
    have hz := (Finset.sum_eq_zero_iff_of_nonneg fun k _ => hterm k).1 hsum
    have heq : ∀ m < n + 1, ∀ c, x m c = ewMean d x (n + 1) := by
      intro m hm c
      have h1 := hz m (Finset.mem_range.2 hm)
      have h2 : (avg fun c => (x m c - ewMean d x (n + 1)) ^ 2) = 0 :=
        (mul_eq_zero.1 h1).resolve_left (by positivity)
      have hcard : (Fintype.card C : ℝ) ≠ 0 := by exact_mod_cast Fintype.card_ne_zero
      have h3 : ∑ c, (x m c - ewMean d x (n + 1)) ^ 2 = 0 := (div_eq_zero_iff.1 h2).resolve_right hcard
      have h4 := (Finset.sum_eq_zero_iff_of_nonneg fun c _ => sq_nonneg _).1 h3 c (Finset.mem_univ c)
      have := pow_eq_zero_iff (two_ne_zero) |>.1 h4
      linarith
    exact hne ((heq j hj a).trans (heq k hk b).symm)

/-- C55.  Shifting all data leaves the variance as it is. -/
theorem C55_shift [Nonempty C] (d : ℝ) (hd : 0 ≤ d) (x : ℕ → C → ℝ) (r : ℝ) (n : ℕ) :
    ewVar d (fun k c => x k c + r) n = ewVar d x n := by
  rcases n with _ | n
  · simp [ewVar]
  have hS := (weights_pos d hd n).ne'
  have hm : ewMean d (fun k c => x k c + r) (n + 1) = ewMean d x (n + 1) + r := by
    have e : ∀ k, avg (fun c => x k c + r) = avg (x k) + r := by
      intro k
      rw [avg_add (x k) fun _ => r, avg_const]
    simp only [ewMean, e, mul_add, Finset.sum_add_distrib, ← Finset.sum_mul]
    field_simp
  simp only [ewVar, hm, add_sub_add_right_eq_sub]

/-- What an iteration that finishes does to the variance estimator and the momentum. -/
theorem sample_mass (cfg : Cfg ℝ) (logPost : (C → ι → ℝ) → C → ℝ) (grad : (C → ι → ℝ) → C → ι → ℝ)
    (feed : Feed) (z : C → ι → ℝ) (u : C → ℝ) (s s' : State ℝ C ι) (info : Info ℝ C ι)
    (h : sample cfg logPost grad feed z u s = .ok s' info) :
    s'.ewmv = (adaptMass cfg feed (s.t + 1) s.q s.ewmv).1 ∧
    info.initMomentum = fun c i => z c i * Real.sqrt ((adaptMass cfg feed (s.t + 1) s.q s.ewmv).2 i) := by
  simp only [sample] at h
  split at h
  · exact absurd h (by simp)
  · rw [if_pos (allFinite _)] at h
    simp only [Outcome.ok.injEq] at h
    obtain ⟨rfl, rfl⟩ := h
    exact ⟨rfl, rfl⟩

/-- C55.  In a run that adapts the mass in its first `m ≥ 1` iterations: before iteration
`mass_collect_iters` momenta are standard normal, from then on their variance is the inverse of the
exponentially weighted variance of the positions at the start of the adapting iterations so far. -/
theorem C55_momentum [Nonempty C] (cfg : Cfg ℝ) (h1 : cfg.adaptsMass = true) (hd : 0 ≤ cfg.massDecay)
    (hd1 : cfg.massDecay < 1)
    (logPost : (C → ι → ℝ) → C → ℝ) (grad : (C → ι → ℝ) → C → ι → ℝ) (feed : ℕ → Feed) (m : ℕ)
    (hf : ∀ k, (feed k).adaptMass = true ↔ k < m) (z : ℕ → C → ι → ℝ) (u : ℕ → C → ℝ)
    (s : ℕ → State ℝ C ι) (info : ℕ → Info ℝ C ι)
    (hs : ∀ k, sample cfg logPost grad (feed k) (z k) (u k) (s k) = .ok (s (k + 1)) (info k))
    (ht : (s 0).t = 0) (he : (s 0).ewmv = Ewmv.init) (k : ℕ) (c : C) (i : ι) :
    (k + 1 < cfg.massCollect → (info k).initMomentum c i = z k c i) ∧
    (cfg.massCollect ≤ k + 1 → (info k).initMomentum c i =
      z k c i * Real.sqrt (1 / ewVar cfg.massDecay (fun j c => (s j).q c i) (min (k + 1) m))) := by
  have ht' : ∀ m, (s m).t = m := by
    intro m
    induction m with
    | zero => exact ht
    | succ m ih => rw [(sample_tuner cfg logPost grad _ _ _ _ _ _ (hs m)).1, ih]; simp [h1]
  have hm := fun k => sample_mass cfg logPost grad _ _ _ _ _ _ (hs k)
  let e : ℕ → Ewmv ℝ ι := fun j => Nat.rec Ewmv.init (fun j r => r.update cfg.massDecay (s j).q) j
  have hstep : ∀ k, (adaptMass cfg (feed k) ((s k).t + 1) (s k).q (s k).ewmv).1 =
      if k < m then (s k).ewmv.update cfg.massDecay (s k).q else (s k).ewmv := by
    intro k
    simp only [adaptMass, h1, if_true]
    by_cases hk : k < m
    · rw [if_pos ((hf k).2 hk), if_pos hk]
    · rw [if_neg (fun h => hk ((hf k).1 h)), if_neg hk]
  have hew : ∀ k, (s k).ewmv = e (min k m) := by
    intro k
    induction k with
    | zero => rw [he, Nat.zero_min]; rfl
    | succ k ih =>
      rw [(hm k).1, hstep k, ih]
      split
      · rename_i hk
        rw [min_eq_left (by omega), min_eq_left (by omega)]
      · rename_i hk
        rw [min_eq_right (by omega), min_eq_right (by omega)]
  have hmass : (adaptMass cfg (feed k) ((s k).t + 1) (s k).q (s k).ewmv).2 =
      if k + 1 < cfg.massCollect then fun _ => 1 else fun i => 1 / (s (k + 1)).ewmv.var i := by
    rw [(hm k).1]
    simp only [adaptMass, h1, if_true, ht']
    rfl
  have hvar := (C55_moments cfg.massDecay hd hd1 (fun j => (s j).q) e rfl (fun _ => rfl)
    (min (k + 1) m) i).2
  rw [(hm k).2, hmass]
  refine ⟨fun h => ?_, fun h => ?_⟩
  · simp [if_pos h]
  · rw [if_neg (by omega)]
    simp only [hew (k + 1), hvar]

/-- C55.  Without the `adapt_mass` argument momenta are standard normal. -/
theorem C55_none (cfg : Cfg ℝ) (h1 : cfg.adaptsMass = false)
    (logPost : (C → ι → ℝ) → C → ℝ) (grad : (C → ι → ℝ) → C → ι → ℝ) (feed : Feed) (z : C → ι → ℝ)
    (u : C → ℝ) (s s' : State ℝ C ι) (info : Info ℝ C ι)
    (hs : sample cfg logPost grad feed z u s = .ok s' info) : info.initMomentum = z := by
  rw [(sample_mass cfg logPost grad feed z u s s' info hs).2]
  simp [adaptMass, h1]

/-- A concrete case: two chains at 0 and 2 have variance 1. -/
example : ewVar 0.99 (fun _ (c : Fin 2) => if c = 0 then 0 else 2) 1 = 1 := by
  norm_num [ewVar, ewMean, avg, Fin.sum_univ_two]

end ZhuSuan.Hmc
