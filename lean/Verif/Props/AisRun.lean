import Verif.Model.AisRun
import Verif.Props.HmcFetch
import Verif.Props.ZeroDensity

/-!
# C122  AIS returns a finite number or nothing

The property: a run of AIS returns a finite estimate.  If it returns, it does: the estimate is never NaN or infinite.  But one draw
from the proposal where the log density of the model (or of the proposal) is infinite or NaN ends the whole run with an error, after
the adaptation, where a weight of zero would be right.  Without such a draw the run returns, unless the search for a step size goes on
for ever.
-/

set_option autoImplicit false

namespace ZhuSuan.AisRun
open XF Hmc Checked

variable {n m : ℕ} {ι : Type} [Fintype ι]

/-- Both log densities of every chain are finite. -/
def Good (a : Ais n m ι) (q : Chains n m → ι → XF) : Prop := ∀ c, (a.logPrior q c).isFinite ∧ (a.logJoint q c).isFinite

/-- The log densities of a chain do not depend on the other chains. -/
def Own (a : Ais n m ι) : Prop :=
  ∀ q q' : Chains n m → ι → XF, ∀ c, q c = q' c → a.logPrior q c = a.logPrior q' c ∧ a.logJoint q c = a.logJoint q' c

/-- Uniform draws are not negative. -/
def Noise.Ok (w : Noise n m ι) : Prop := ∀ c, ∃ r : ℝ, 0 ≤ r ∧ w.u c = fin r

omit [Fintype ι] in
theorem logFn_finite (a : Ais n m ι) (t : ℝ) (q : Chains n m → ι → XF) (c : Chains n m) :
    (a.logFn t q c).isFinite ↔ (a.logPrior q c).isFinite ∧ (a.logJoint q c).isFinite := by
  have h1 : (fin 1 - fin t : XF).isFinite := trivial
  have h2 : (fin t).isFinite := trivial
  simp only [Ais.logFn, ZeroDensity.aisLogFn, add_isFinite, mul_isFinite, h1, h2, and_true]

theorem eq_fin {x : XF} (h : x.isFinite) : ∃ r, x = fin r := by
  cases x with
  | fin r => exact ⟨r, rfl⟩
  | inf => exact h.elim
  | ninf => exact h.elim
  | nan => exact h.elim

/-- The reported log density after the test is finite if the one before is. -/
theorem logProb_finite {C : Type} (k : ℕ) (logPost : (C → ι → XF) → C → XF) (grad : (C → ι → XF) → C → ι → XF) (mass : ι → XF)
    (eps : XF) (q p : C → ι → XF) (u : C → XF) (c : C) (hu : ∃ r : ℝ, 0 ≤ r ∧ u c = fin r)
    (h : ((transition k logPost grad mass eps q p u).mh c).oldLogProb.isFinite) :
    ((transition k logPost grad mass eps q p u).logProb c).isFinite := by
  classical
  by_cases ha : Flt.lt (u c) ((transition k logPost grad mass eps q p u).mh c).rate
  · have e : (transition k logPost grad mass eps q p u).logProb c = ((transition k logPost grad mass eps q p u).mh c).newLogProb :=
      if_pos ha
    rw [e]
    by_contra hf
    obtain ⟨r, hr, hur⟩ := hu
    have h0 : ((transition k logPost grad mass eps q p u).mh c).rate = fin 0 := if_neg fun h => hf h.2
    rw [h0, hur] at ha
    exact hr.not_gt ha
  · have e : (transition k logPost grad mass eps q p u).logProb c = ((transition k logPost grad mass eps q p u).mh c).oldLogProb :=
      if_neg ha
    rw [e]
    exact h

/-- An annealing run that finishes. -/
theorem anneal_sess (a : Ais n m ι) (t : ℝ) (w : Noise n m ι) (hw : w.Ok) (s : State XF (Chains n m) ι)
    (r : State XF (Chains n m) ι × Info XF (Chains n m) ι) (h : a.sess annealFetches t w s = .ok r) :
    Good a s.q ∧ (∀ c, (r.2.origLogProb c).isFinite ∧ (r.2.logProb c).isFinite) ∧ (Own a → Good a r.1.q) := by
  obtain ⟨s', info⟩ := r
  have hs : sampleWith annealFetches a.cfg (a.logFn t) (a.grad t) a.feed w.z w.u s = .ok s' info := by
    simp only [Ais.sess] at h
    split at h <;> simp_all
  have hi := iteration_of_ok _ _ _ _ _ _ _ _ _ _ hs
  have ho := origLogProb_eq _ _ _ _ _ _ _ _ _ hi
  have hg : Good a s.q := fun c => by
    rw [← logFn_finite a t]
    by_contra hb
    rw [C119_fetched _ (.inl rfl)] at hs
    exact C51_bad_start _ _ _ _ _ _ _ c hb s' info hs
  have hof : ∀ c, (info.origLogProb c).isFinite := fun c => by rw [ho]; exact (logFn_finite a t _ c).2 (hg c)
  simp only [iteration, Option.map_eq_some_iff, Prod.mk.injEq] at hi
  obtain ⟨eps, -, rfl, rfl⟩ := hi
  refine ⟨hg, fun c => ⟨hof c, logProb_finite _ _ _ _ _ _ _ _ c (hw c) (hof c)⟩, fun hown c => ?_⟩
  rcases accepted a.cfg.nLeapfrogs (a.logFn t) (a.grad t) (adaptMass a.cfg a.feed (s.t + 1) s.q s.ewmv).2 eps s.q
    (randomMomentum w.z (adaptMass a.cfg a.feed (s.t + 1) s.q s.ewmv).2) w.u c (hw c) with e | ⟨y, e, hy⟩
  · rw [(hown _ _ c e).1, (hown _ _ c e).2]
    exact hg c
  · rw [(hown _ _ c e).1, (hown _ _ c e).2]
    exact (logFn_finite a t y c).1 hy

/-- How an annealing run ends. -/
theorem anneal_sess_cases (a : Ais n m ι) (t : ℝ) (w : Noise n m ι) (s : State XF (Chains n m) ι) :
    (Good a s.q → (∃ r, a.sess annealFetches t w s = .ok r) ∨ (a.cfg.adaptsStep = true ∧ a.sess annealFetches t w s = .diverges)) ∧
    (¬Good a s.q → a.sess annealFetches t w s = .numericError ∨
      (a.cfg.adaptsStep = true ∧ a.sess annealFetches t w s = .diverges)) := by
  simp only [Ais.sess, sampleWith]
  cases hi : iteration a.cfg (a.logFn t) (a.grad t) a.feed w.z w.u s with
  | none =>
    have : a.cfg.adaptsStep = true := by
      by_contra ha
      simp [iteration, usedStepSize, ha] at hi
    exact ⟨fun _ => .inr ⟨this, rfl⟩, fun _ => .inr ⟨this, rfl⟩⟩
  | some r =>
    obtain ⟨s', info⟩ := r
    have ho := origLogProb_eq _ _ _ _ _ _ _ _ _ hi
    constructor
    · intro hg
      left
      simp only
      rw [if_neg]
      · exact ⟨_, rfl⟩
      · rintro ⟨-, c, hc⟩
        rw [ho] at hc
        exact hc ((logFn_finite a t _ c).2 (hg c))
    · intro hg
      left
      simp only [Good, not_forall] at hg
      obtain ⟨c, hc⟩ := hg
      simp only
      rw [if_pos]
      refine ⟨rfl, c, fun h => hc ((logFn_finite a t _ c).1 ?_)⟩
      rw [← ho]
      exact h

/-- How the adaptation ends. -/
theorem adaptLoop_cases (a : Ais n m ι) (t : ℝ) (w : ℕ → Noise n m ι) (s : State XF (Chains n m) ι) (k : ℕ) :
    (∃ s', a.adaptLoop t w s k = .ok s') ∨ (a.cfg.adaptsStep = true ∧ a.adaptLoop t w s k = .diverges) := by
  induction k with
  | zero => exact .inl ⟨_, rfl⟩
  | succ k ih =>
    rcases ih with ⟨s', h⟩ | ⟨ha, h⟩
    · simp only [Ais.adaptLoop, h, Res.bind, Ais.sess, sampleWith]
      cases hi : iteration a.cfg (a.logFn t) (a.grad t) a.feed (w k).z (w k).u s' with
      | none =>
        refine .inr ⟨?_, rfl⟩
        by_contra ha
        simp [iteration, usedStepSize, ha] at hi
      | some r =>
        left
        obtain ⟨s1, info⟩ := r
        simp only
        rw [if_neg (by simp [adaptFetches, Fetches.checked])]
        exact ⟨_, rfl⟩
    · exact .inr ⟨ha, by simp only [Ais.adaptLoop, h, Res.bind]⟩

/-- Rounds that finish keep finite weights finite, and there is only a first round from finite log densities. -/
theorem annealLoop_ok (a : Ais n m ι) (N : ℕ) (w : ℕ → Noise n m ι) (hw : ∀ k, (w k).Ok) (s : State XF (Chains n m) ι)
    (lw : Chains n m → XF) (k : ℕ) (x : State XF (Chains n m) ι × (Chains n m → XF)) (h : a.annealLoop N w s lw k = .ok x) :
    (k ≠ 0 → Good a s.q) ∧ (∀ c, (lw c).isFinite → (x.2 c).isFinite) ∧ (Own a → Good a s.q → Good a x.1.q) := by
  induction k generalizing x with
  | zero =>
    simp only [Ais.annealLoop, Res.ok.injEq] at h
    subst h
    exact ⟨fun h => absurd rfl h, fun _ h => h, fun _ h => h⟩
  | succ k ih =>
    simp only [Ais.annealLoop] at h
    cases hy : a.annealLoop N w s lw k with
    | ok y =>
      rw [hy] at h
      simp only [Res.bind] at h
      cases hr : a.sess annealFetches (Ais.scheduleT N ((k + 1 : ℕ) : ℝ)) (w k) y.1 with
      | ok r =>
        rw [hr] at h
        simp only [Res.ok.injEq] at h
        subst h
        obtain ⟨h1, h2, h3⟩ := anneal_sess a _ _ (hw k) _ _ hr
        obtain ⟨i1, i2, i3⟩ := ih y hy
        refine ⟨fun _ => ?_, fun c hc => ?_, fun ho _ => h3 ho⟩
        · rcases k with _ | k
          · simp only [Ais.annealLoop, Res.ok.injEq] at hy
            subst hy
            exact h1
          · exact i1 (by simp)
        · dsimp only
          split
          · rw [add_isFinite]
            refine ⟨i2 c hc, ?_⟩
            obtain ⟨r1, hr1⟩ := eq_fin (h2 c).1
            obtain ⟨r2, hr2⟩ := eq_fin (h2 c).2
            rw [hr1, hr2]
            trivial
          · rw [add_isFinite]
            exact ⟨i2 c hc, (h2 c).1⟩
      | numericError => rw [hr] at h; cases h
      | zeroDivision => rw [hr] at h; cases h
      | diverges => rw [hr] at h; cases h
    | numericError => rw [hy] at h; cases h
    | zeroDivision => rw [hy] at h; cases h
    | diverges => rw [hy] at h; cases h

/-- Rounds from finite log densities finish. -/
theorem annealLoop_good (a : Ais n m ι) (ho : Own a) (N : ℕ) (w : ℕ → Noise n m ι) (hw : ∀ k, (w k).Ok) (s : State XF (Chains n m) ι)
    (lw : Chains n m → XF) (hs : Good a s.q) (k : ℕ) :
    (∃ x, a.annealLoop N w s lw k = .ok x) ∨ (a.cfg.adaptsStep = true ∧ a.annealLoop N w s lw k = .diverges) := by
  induction k with
  | zero => exact .inl ⟨_, rfl⟩
  | succ k ih =>
    rcases ih with ⟨x, h⟩ | ⟨ha, h⟩
    · have hx := (annealLoop_ok a N w hw s lw k x h).2.2 ho hs
      rcases (anneal_sess_cases a (Ais.scheduleT N ((k + 1 : ℕ) : ℝ)) (w k) x.1).1 hx with ⟨r, hr⟩ | ⟨ha, hr⟩
      · exact .inl ⟨_, by simp only [Ais.annealLoop, h, Res.bind, hr]; rfl⟩
      · exact .inr ⟨ha, by simp only [Ais.annealLoop, h, Res.bind, hr]⟩
    · exact .inr ⟨ha, by simp only [Ais.annealLoop, h, Res.bind]⟩

/-- Rounds from other log densities do not. -/
theorem annealLoop_bad (a : Ais n m ι) (N : ℕ) (w : ℕ → Noise n m ι) (s : State XF (Chains n m) ι)
    (lw : Chains n m → XF) (hs : ¬Good a s.q) (k : ℕ) :
    a.annealLoop N w s lw (k + 1) = .numericError ∨ (a.cfg.adaptsStep = true ∧ a.annealLoop N w s lw (k + 1) = .diverges) := by
  induction k with
  | zero =>
    rcases (anneal_sess_cases a (Ais.scheduleT N ((0 + 1 : ℕ) : ℝ)) (w 0) s).2 hs with hr | ⟨ha, hr⟩
    · exact .inl (by simp only [Ais.annealLoop, Res.bind, hr])
    · exact .inr ⟨ha, by simp only [Ais.annealLoop, Res.bind, hr]⟩
  | succ k ih =>
    rw [Ais.annealLoop]
    rcases ih with h | ⟨ha, h⟩
    · exact .inl (by rw [h]; rfl)
    · exact .inr ⟨ha, by rw [h]; rfl⟩

/-- The estimate from finite weights is finite. -/
theorem estimate_finite (lw : Chains n m → XF) (h : ∀ c, (lw c).isFinite) :
    ∃ r, (ZeroDensity.reduceMean fun d => ZeroDensity.logMeanExp fun k => lw (k, d)) = fin r := by
  have hd : ∀ d, ∃ r, (ZeroDensity.logMeanExp fun k => lw (k, d)) = fin r := fun d =>
    ⟨_, ZeroDensity.C116_log_mean_exp_partial (fun i => .inr (eq_fin (h (i, d)))) ⟨0, eq_fin (h (0, d))⟩⟩
  choose r hr using hd
  have hm : ((m : ℝ) + 1) ≠ 0 := by positivity
  exact ⟨_, by simp only [ZeroDensity.reduceMean, hr, fin_sum]; rw [fin_div _ _ hm]⟩

/-- C122.  Whatever the densities, the draws and the configuration: a run that returns, returns a finite number, never NaN or an
infinity, and then both log densities were finite at all draws from the proposal that the annealing started from. -/
theorem C122_finite (a : Ais n m ι) (N nAdapt : ℕ) (draw1 draw2 : Chains n m → ι → XF) (wAdapt w : ℕ → Noise n m ι)
    (hw : ∀ k, (w k).Ok) (s : State XF (Chains n m) ι) (x : XF) (h : a.run N nAdapt draw1 draw2 wAdapt w s = .ok x) :
    (∃ r : ℝ, x = fin r) ∧ ∀ c, (∃ r : ℝ, a.logPrior draw2 c = fin r) ∧ ∃ r : ℝ, a.logJoint draw2 c = fin r := by
  by_cases hN : N = 0
  · simp [Ais.run, hN] at h
  · rw [Ais.run, if_neg hN] at h
    dsimp only at h
    rcases adaptLoop_cases a (Ais.scheduleT N (if 1 < N then 2 else 1)) wAdapt { s with q := draw1 } nAdapt with ⟨s', h'⟩ | ⟨-, h'⟩
    · rw [h'] at h
      simp only [Res.bind] at h
      split at h
      · rename_i y hy
        obtain ⟨h1, h2, -⟩ := annealLoop_ok a N w hw _ _ N y hy
        have hg : Good a draw2 := h1 hN
        simp only [Res.ok.injEq] at h
        subst h
        refine ⟨estimate_finite _ fun c => h2 c ?_, fun c => ⟨eq_fin (hg c).1, eq_fin (hg c).2⟩⟩
        obtain ⟨r, hr⟩ := eq_fin ((logFn_finite a 0 draw2 c).2 (hg c))
        rw [hr]
        trivial
      all_goals cases h
    · rw [h'] at h
      cases h

/-- The number in a finite value. -/
noncomputable def num : XF → ℝ
  | fin r => r
  | _ => 0

theorem fin_num {x : XF} (h : x.isFinite) : x = fin (num x) := by
  obtain ⟨r, rfl⟩ := eq_fin h
  rfl

/-- The tempered log density as a real number. -/
noncomputable def temp (a : Ais n m ι) (t : ℝ) (q : Chains n m → ι → XF) (c : Chains n m) : ℝ :=
  num (a.logPrior q c) * (1 - t) + num (a.logJoint q c) * t

omit [Fintype ι] in
theorem logFn_num (a : Ais n m ι) (t : ℝ) (q : Chains n m → ι → XF) (c : Chains n m)
    (h : (a.logPrior q c).isFinite ∧ (a.logJoint q c).isFinite) : a.logFn t q c = fin (temp a t q c) := by
  rw [Ais.logFn, fin_num h.1, fin_num h.2]
  rfl

/-- The log densities that an annealing run reports are those of the states before and after it. -/
theorem sess_logProb (a : Ais n m ι) (ho : Own a) (t : ℝ) (w : Noise n m ι) (s : State XF (Chains n m) ι)
    (r : State XF (Chains n m) ι × Info XF (Chains n m) ι) (h : a.sess annealFetches t w s = .ok r) (c : Chains n m) :
    r.2.origLogProb c = a.logFn t s.q c ∧ r.2.logProb c = a.logFn t r.1.q c := by
  classical
  obtain ⟨s', info⟩ := r
  have hs : sampleWith annealFetches a.cfg (a.logFn t) (a.grad t) a.feed w.z w.u s = .ok s' info := by
    simp only [Ais.sess] at h
    split at h <;> simp_all
  have hi := iteration_of_ok _ _ _ _ _ _ _ _ _ _ hs
  have hold := origLogProb_eq _ _ _ _ _ _ _ _ _ hi c
  refine ⟨hold, ?_⟩
  have hneg : ∀ x : XF, -(-x) = x := fun x => by cases x <;> simp [XF.neg]
  simp only [iteration, Option.map_eq_some_iff, Prod.mk.injEq] at hi
  obtain ⟨eps, -, rfl, rfl⟩ := hi
  have hlf : ∀ q q' : Chains n m → ι → XF, q c = q' c → a.logFn t q c = a.logFn t q' c := fun q q' e => by
    simp only [Ais.logFn, (ho q q' c e).1, (ho q q' c e).2]
  dsimp only at hold ⊢
  generalize adaptMass a.cfg a.feed (s.t + 1) s.q s.ewmv = em at *
  by_cases ha : Flt.lt (w.u c) ((transition a.cfg.nLeapfrogs (a.logFn t) (a.grad t) em.2 eps s.q (randomMomentum w.z em.2) w.u).mh c).rate
  · have e1 : (transition a.cfg.nLeapfrogs (a.logFn t) (a.grad t) em.2 eps s.q (randomMomentum w.z em.2) w.u).logProb c =
        -(-a.logFn t (leapfrog em.2 (a.grad t) a.cfg.nLeapfrogs eps (s.q, randomMomentum w.z em.2)).1 c) := if_pos ha
    rw [e1, hneg]
    exact hlf _ _ (funext fun i => (if_pos ha).symm)
  · have e1 : (transition a.cfg.nLeapfrogs (a.logFn t) (a.grad t) em.2 eps s.q (randomMomentum w.z em.2) w.u).logProb c =
        ((transition a.cfg.nLeapfrogs (a.logFn t) (a.grad t) em.2 eps s.q (randomMomentum w.z em.2) w.u).mh c).oldLogProb := if_neg ha
    rw [e1, hold]
    exact hlf _ _ (funext fun i => (if_neg ha).symm)

/-- The states of the chains through the rounds, and the weights. -/
theorem annealLoop_value (a : Ais n m ι) (ho : Own a) (N : ℕ) (w : ℕ → Noise n m ι) (hw : ∀ k, (w k).Ok)
    (s : State XF (Chains n m) ι) (lw : Chains n m → ℝ) (k : ℕ) (x : State XF (Chains n m) ι × (Chains n m → XF))
    (h : a.annealLoop N w s (fun c => fin (lw c)) k = .ok x) :
    ∃ st : ℕ → State XF (Chains n m) ι, st 0 = s ∧ st k = x.1 ∧
      (∀ j < k, Good a (st j).q ∧ ∃ info, a.sess annealFetches (Ais.scheduleT N ((j + 1 : ℕ) : ℝ)) (w j) (st j) = .ok (st (j + 1), info)) ∧
      ∀ c, x.2 c = fin (lw c + ∑ j ∈ Finset.range k, (temp a (Ais.scheduleT N ((j + 1 : ℕ) : ℝ)) (st j).q c -
        if j + 1 < N then temp a (Ais.scheduleT N ((j + 1 : ℕ) : ℝ)) (st (j + 1)).q c else 0)) := by
  induction k generalizing x with
  | zero =>
    simp only [Ais.annealLoop, Res.ok.injEq] at h
    subst h
    exact ⟨fun _ => s, rfl, rfl, fun j hj => absurd hj (by simp), fun c => by simp⟩
  | succ k ih =>
    simp only [Ais.annealLoop] at h
    cases hy : a.annealLoop N w s (fun c => fin (lw c)) k with
    | ok y =>
      rw [hy] at h
      simp only [Res.bind] at h
      cases hr : a.sess annealFetches (Ais.scheduleT N ((k + 1 : ℕ) : ℝ)) (w k) y.1 with
      | ok r =>
        rw [hr] at h
        simp only [Res.ok.injEq] at h
        subst h
        obtain ⟨st, h0, hk, hst, hv⟩ := ih y hy
        obtain ⟨g1, -, g2⟩ := anneal_sess a _ _ (hw k) _ _ hr
        have hp := sess_logProb a ho _ _ _ _ hr
        have e : ∀ j ≤ k, (if j ≤ k then st j else r.1) = st j := fun j hj => if_pos hj
        have e' : (if k + 1 ≤ k then st (k + 1) else r.1) = r.1 := if_neg (by simp)
        refine ⟨fun j => if j ≤ k then st j else r.1, by simpa using h0, e', fun j hj => ?_, fun c => ?_⟩
        · rcases Nat.lt_succ_iff_lt_or_eq.1 hj with hj | rfl
          · dsimp only
            rw [e j hj.le, e (j + 1) hj]
            exact hst j hj
          · dsimp only
            rw [e j le_rfl, e', hk]
            exact ⟨g1, r.2, hr⟩
        · have hsum : ∑ j ∈ Finset.range k, (temp a (Ais.scheduleT N ((j + 1 : ℕ) : ℝ)) (if j ≤ k then st j else r.1).q c -
              if j + 1 < N then temp a (Ais.scheduleT N ((j + 1 : ℕ) : ℝ)) (if j + 1 ≤ k then st (j + 1) else r.1).q c else 0) =
              ∑ j ∈ Finset.range k, (temp a (Ais.scheduleT N ((j + 1 : ℕ) : ℝ)) (st j).q c -
              if j + 1 < N then temp a (Ais.scheduleT N ((j + 1 : ℕ) : ℝ)) (st (j + 1)).q c else 0) := by
            refine Finset.sum_congr rfl fun j hj => ?_
            have hj := Finset.mem_range.1 hj
            rw [e j hj.le, e (j + 1) hj]
          dsimp only
          rw [Finset.sum_range_succ, hsum, e k le_rfl, e', hk, hv c, (hp c).1, (hp c).2, logFn_num a _ _ c (g1 c),
            logFn_num a _ _ c (g2 ho c)]
          split
          · show fin _ = fin _
            congr 1
            ring
          · show fin _ = fin _
            congr 1
            ring
      | numericError => rw [hr] at h; cases h
      | zeroDivision => rw [hr] at h; cases h
      | diverges => rw [hr] at h; cases h
    | numericError => rw [hy] at h; cases h
    | zeroDivision => rw [hy] at h; cases h
    | diverges => rw [hy] at h; cases h

/-- C122.  The number that a run returns: with `st k` the variables after `k` of the annealing runs, the log weight of a chain is the sum over the
temperatures `β` of `(β (k+1) - β k) (log joint - log proposal)` at `st k`; the estimate is the mean over the data of the log of the mean
weight over the samples. -/
theorem C122_value (a : Ais n m ι) (ho : Own a) (N nAdapt : ℕ) (draw1 draw2 : Chains n m → ι → XF) (wAdapt w : ℕ → Noise n m ι)
    (hw : ∀ k, (w k).Ok) (s : State XF (Chains n m) ι) (x : XF) (h : a.run N nAdapt draw1 draw2 wAdapt w s = .ok x) :
    ∃ st : ℕ → State XF (Chains n m) ι, ∃ logPrior logJoint : ℕ → Chains n m → ℝ,
      (st 0).q = draw2 ∧
      (∀ k < N, ∃ info, a.sess annealFetches (Ais.scheduleT N ((k + 1 : ℕ) : ℝ)) (w k) (st k) = .ok (st (k + 1), info)) ∧
      (∀ k < N, ∀ c, a.logPrior (st k).q c = fin (logPrior k c) ∧ a.logJoint (st k).q c = fin (logJoint k c)) ∧
      x = fin ((∑ d, Real.log ((∑ i, Real.exp (∑ k ∈ Finset.range N,
        (Ais.scheduleT N ((k + 1 : ℕ) : ℝ) - Ais.scheduleT N (k : ℝ)) * (logJoint k (i, d) - logPrior k (i, d)))) / (n + 1))) / (m + 1)) := by
  have hg : Good a draw2 := fun c => by
    obtain ⟨⟨r1, h1⟩, r2, h2⟩ := (C122_finite a N nAdapt draw1 draw2 wAdapt w hw s x h).2 c
    rw [h1, h2]
    exact ⟨trivial, trivial⟩
  by_cases hN : N = 0
  · simp [Ais.run, hN] at h
  · rw [Ais.run, if_neg hN] at h
    dsimp only at h
    rcases adaptLoop_cases a (Ais.scheduleT N (if 1 < N then 2 else 1)) wAdapt { s with q := draw1 } nAdapt with ⟨s', h'⟩ | ⟨-, h'⟩
    · rw [h'] at h
      simp only [Res.bind] at h
      have e0 : (fun c => -a.logFn 0 draw2 c) = fun c => fin (-temp a 0 draw2 c) := funext fun c => by
        rw [logFn_num a 0 draw2 c (hg c)]
        rfl
      rw [e0] at h
      split at h
      · rename_i y hy
        obtain ⟨st, h0, -, hst, hv⟩ := annealLoop_value a ho N w hw _ _ N y hy
        simp only [Res.ok.injEq] at h
        refine ⟨st, fun k c => num (a.logPrior (st k).q c), fun k c => num (a.logJoint (st k).q c), by rw [h0], fun k hk => (hst k hk).2,
          fun k hk c => ⟨fin_num ((hst k hk).1 c).1, fin_num ((hst k hk).1 c).2⟩, ?_⟩
        have hq : draw2 = (st 0).q := by rw [h0]
        have hsum : ∀ c, y.2 c = fin (∑ k ∈ Finset.range N, (Ais.scheduleT N ((k + 1 : ℕ) : ℝ) - Ais.scheduleT N (k : ℝ)) *
            (num (a.logJoint (st k).q c) - num (a.logPrior (st k).q c))) := by
          intro c
          rw [hv c]
          congr 1
          obtain ⟨M, rfl⟩ := Nat.exists_eq_succ_of_ne_zero hN
          have hT0 : Ais.scheduleT (M + 1) ((0 : ℕ) : ℝ) = 0 := by simp [Ais.scheduleT]
          have e1 : ∀ k, (Ais.scheduleT (M + 1) ((k + 1 : ℕ) : ℝ) - Ais.scheduleT (M + 1) (k : ℝ)) *
              (num (a.logJoint (st k).q c) - num (a.logPrior (st k).q c)) =
              temp a (Ais.scheduleT (M + 1) ((k + 1 : ℕ) : ℝ)) (st k).q c - temp a (Ais.scheduleT (M + 1) (k : ℝ)) (st k).q c := by
            intro k
            simp only [temp]
            ring
          simp only [Nat.succ_eq_add_one, e1, Finset.sum_sub_distrib]
          rw [Finset.sum_range_succ (fun j => if j + 1 < M + 1 then _ else _), if_neg (by simp),
            Finset.sum_range_succ' (fun k => temp a (Ais.scheduleT (M + 1) (k : ℝ)) (st k).q c), hT0, hq,
            Finset.sum_congr rfl fun j hj => if_pos (by simpa using Finset.mem_range.1 hj)]
          ring
        rw [← h]
        have hm : ((m : ℝ) + 1) ≠ 0 := by positivity
        have hd : ∀ d, (ZeroDensity.logMeanExp fun k => y.2 (k, d)) = fin (Real.log ((∑ i, Real.exp (∑ k ∈ Finset.range N,
            (Ais.scheduleT N ((k + 1 : ℕ) : ℝ) - Ais.scheduleT N (k : ℝ)) *
            (num (a.logJoint (st k).q (i, d)) - num (a.logPrior (st k).q (i, d))))) / (n + 1))) := by
          intro d
          rw [ZeroDensity.C116_log_mean_exp_partial (fun i => .inr ⟨_, hsum (i, d)⟩) ⟨0, _, hsum (0, d)⟩]
          simp only [hsum, ZeroDensity.density]
        simp only [ZeroDensity.reduceMean, hd, fin_sum]
        rw [fin_div _ _ hm]
      all_goals cases h
    · rw [h'] at h
      cases h

/-- C122, partial: if both log densities are finite at the draws that the annealing starts from, and those of a chain depend on this
chain only, then the run returns a finite number.  It may also search for a step size for ever, but only if the step size is adapted.
Missing: other draws, for which the claim is false (`C122_draw_refuted`), and no temperatures (`C122_no_temperatures`). -/
theorem C122_returns_partial (a : Ais n m ι) (ho : Own a) (N nAdapt : ℕ) (hN : N ≠ 0) (draw1 draw2 : Chains n m → ι → XF)
    (wAdapt w : ℕ → Noise n m ι) (hw : ∀ k, (w k).Ok) (s : State XF (Chains n m) ι)
    (h : ∀ c, (∃ r : ℝ, a.logPrior draw2 c = fin r) ∧ ∃ r : ℝ, a.logJoint draw2 c = fin r) :
    (∃ r : ℝ, a.run N nAdapt draw1 draw2 wAdapt w s = .ok (fin r)) ∨
    (a.cfg.adaptsStep = true ∧ a.run N nAdapt draw1 draw2 wAdapt w s = .diverges) := by
  have hg : Good a draw2 := fun c => by
    obtain ⟨⟨r1, h1⟩, r2, h2⟩ := h c
    rw [h1, h2]
    exact ⟨trivial, trivial⟩
  suffices hs : (∃ x, a.run N nAdapt draw1 draw2 wAdapt w s = .ok x) ∨
      (a.cfg.adaptsStep = true ∧ a.run N nAdapt draw1 draw2 wAdapt w s = .diverges) by
    rcases hs with ⟨x, hx⟩ | hs
    · obtain ⟨r, rfl⟩ := (C122_finite a N nAdapt draw1 draw2 wAdapt w hw s x hx).1
      exact .inl ⟨r, hx⟩
    · exact .inr hs
  rw [Ais.run, if_neg hN]
  dsimp only
  rcases adaptLoop_cases a (Ais.scheduleT N (if 1 < N then 2 else 1)) wAdapt { s with q := draw1 } nAdapt with ⟨s', h'⟩ | ⟨ha, h'⟩
  · rw [h']
    simp only [Res.bind]
    rcases annealLoop_good a ho N w hw { s' with q := draw2 } (fun c => -a.logFn 0 draw2 c) hg N with ⟨x, hx⟩ | ⟨ha, hx⟩
    · rw [hx]
      exact .inl ⟨_, rfl⟩
    · rw [hx]
      exact .inr ⟨ha, rfl⟩
  · rw [h']
    exact .inr ⟨ha, rfl⟩

/-- C122, finding.  One draw of density zero under the model, or with another infinite or NaN log density, is enough: the run never
returns, and if the step size is not adapted it ends with the error of the check. -/
theorem C122_draw_refuted (a : Ais n m ι) (N nAdapt : ℕ) (hN : N ≠ 0) (draw1 draw2 : Chains n m → ι → XF)
    (wAdapt w : ℕ → Noise n m ι) (s : State XF (Chains n m) ι) (c : Chains n m)
    (h : ¬((∃ r : ℝ, a.logPrior draw2 c = fin r) ∧ ∃ r : ℝ, a.logJoint draw2 c = fin r)) :
    a.run N nAdapt draw1 draw2 wAdapt w s = .numericError ∨
    (a.cfg.adaptsStep = true ∧ a.run N nAdapt draw1 draw2 wAdapt w s = .diverges) := by
  have hg : ¬Good a draw2 := fun hg => h ⟨eq_fin (hg c).1, eq_fin (hg c).2⟩
  rw [Ais.run, if_neg hN]
  dsimp only
  rcases adaptLoop_cases a (Ais.scheduleT N (if 1 < N then 2 else 1)) wAdapt { s with q := draw1 } nAdapt with ⟨s', h'⟩ | ⟨ha, h'⟩
  · rw [h']
    simp only [Res.bind]
    obtain ⟨k, rfl⟩ := Nat.exists_eq_succ_of_ne_zero hN
    rcases annealLoop_bad a (k + 1) w { s' with q := draw2 } (fun c => -a.logFn 0 draw2 c) hg k with hx | ⟨ha, hx⟩
    · left
      rw [Nat.succ_eq_add_one, hx]
    · right
      rw [Nat.succ_eq_add_one, hx]
      exact ⟨ha, rfl⟩
  · rw [h']
    exact .inr ⟨ha, rfl⟩

/-- C116, finding.  In particular a draw of density zero under the model does not get weight zero. -/
theorem C116_ais_refuted (a : Ais n m ι) (ha : a.cfg.adaptsStep = false) (N nAdapt : ℕ) (hN : N ≠ 0)
    (draw1 draw2 : Chains n m → ι → XF) (wAdapt w : ℕ → Noise n m ι) (s : State XF (Chains n m) ι) (c : Chains n m)
    (h : a.logJoint draw2 c = ninf) : a.run N nAdapt draw1 draw2 wAdapt w s = .numericError :=
  (C122_draw_refuted a N nAdapt hN draw1 draw2 wAdapt w s c fun ⟨_, r, hr⟩ => by rw [h] at hr; cases hr).resolve_right
    fun h => by rw [ha] at h; cases h.1

/-- C122, finding.  With `n_temperatures=0` every run ends with a division by zero. -/
theorem C122_no_temperatures (a : Ais n m ι) (nAdapt : ℕ) (draw1 draw2 : Chains n m → ι → XF) (wAdapt w : ℕ → Noise n m ι)
    (s : State XF (Chains n m) ι) : a.run 0 nAdapt draw1 draw2 wAdapt w s = .zeroDivision := if_pos rfl

/-- The hypotheses are met: a standard normal proposal, and an exponential model, whose density is zero on the negative numbers; ten
temperatures, two samples, one datum and no adaptation.  From draws 1 and 2 the run returns a finite number; from draws 1 and -1 it
ends with the error. -/
example (t : TunerCfg XF) (draw1 : Chains 1 0 → Unit → XF) (wAdapt w : ℕ → Noise 1 0 Unit) (hw : ∀ k, (w k).Ok)
    (s : State XF (Chains 1 0) Unit) (g : ℝ → (Chains 1 0 → Unit → XF) → Chains 1 0 → Unit → XF) :
    let a : Ais 1 0 Unit := ⟨⟨5, fin 0.8, t, false, false, 0, fin 0.9⟩, ⟨false, false⟩, fun q c => -(q c () * q c ()) * fin 0.5,
      fun q c => match q c () with
        | fin r => if r < 0 then ninf else fin (-r)
        | _ => nan, g⟩
    (∃ r : ℝ, a.run 10 3 draw1 (fun c _ => if c.1 = 0 then fin 1 else fin 2) wAdapt w s = .ok (fin r)) ∧
    a.run 10 3 draw1 (fun c _ => if c.1 = 0 then fin 1 else fin (-1)) wAdapt w s = .numericError := by
  intro a
  have ho : Own a := fun q q' c h => by simp only [a, h, and_self]
  constructor
  · refine (C122_returns_partial a ho 10 3 (by norm_num) draw1 _ wAdapt w hw s fun c => ?_).resolve_right fun h => by simp [a] at h
    simp only [a]
    by_cases hc : c.1 = 0
    · exact ⟨⟨_, by simp only [hc, if_true]; rfl⟩, _, by simp only [hc, if_true]; exact if_neg (by norm_num)⟩
    · exact ⟨⟨_, by simp only [hc, if_false]; rfl⟩, _, by simp only [hc, if_false]; exact if_neg (by norm_num)⟩
  · refine (C122_draw_refuted a 10 3 (by norm_num) draw1 _ wAdapt w s (1, 0) ?_).resolve_right fun h => by simp [a] at h
    rintro ⟨-, r, hr⟩
    simp [a] at hr

end ZhuSuan.AisRun
