import Verif.Model.HmcFetch
import Verif.Props.HmcNumeric
import Verif.Props.Outside

/-!
# C119  When HMC reports a bad starting point

The property: an iteration that starts where the log density is infinite or NaN raises an error.  That holds only of runs that
fetch one of the two log densities of `HMCInfo`.  A run that does not fetch them finishes: from a NaN or `+inf` the chain never
moves again, and from `-inf` it accepts the first proposal that has a finite log density and energy.
-/

set_option autoImplicit false

namespace ZhuSuan.Hmc
open XF

variable {C ι : Type} [Fintype C] [Fintype ι]

section General

variable {α : Type} [Add α] [Sub α] [Neg α] [Mul α] [Div α] [Flt α]

/-- C119.  A run that fetches a log density is the iteration of the other theorems. -/
theorem C119_fetched (f : Fetches) (h : f.origLogProb = true ∨ f.logProb = true) (cfg : Cfg α)
    (logPost : (C → ι → α) → C → α) (grad : (C → ι → α) → C → ι → α) (feed : Feed) (z : C → ι → α) (u : C → α)
    (s : State α C ι) :
    sampleWith f cfg logPost grad feed z u s = sample cfg logPost grad feed z u s := by
  have hf : f.checked = true := by rcases h with h | h <;> simp [Fetches.checked, h]
  simp only [sampleWith, iteration, sample]
  cases usedStepSize cfg logPost grad (s.t + 1) (adaptMass cfg feed (s.t + 1) s.q s.ewmv).2 s.q
    (randomMomentum z (adaptMass cfg feed (s.t + 1) s.q s.ewmv).2) s.stepSize with
  | none => rfl
  | some eps =>
    simp only [Option.map_some]
    by_cases hall : ∀ c, Flt.isFinite ((transition cfg.nLeapfrogs logPost grad (adaptMass cfg feed (s.t + 1) s.q s.ewmv).2
        eps s.q (randomMomentum z (adaptMass cfg feed (s.t + 1) s.q s.ewmv).2) u).mh c).oldLogProb
    · rw [if_pos hall, if_neg fun hc => hc.2.elim fun c h => h (hall c)]
    · rw [if_neg hall, if_pos ⟨hf, not_forall.1 hall⟩]

/-- A run without the check. -/
theorem sampleWith_unchecked (f : Fetches) (h : f.checked = false) (cfg : Cfg α)
    (logPost : (C → ι → α) → C → α) (grad : (C → ι → α) → C → ι → α) (feed : Feed) (z : C → ι → α) (u : C → α)
    (s : State α C ι) :
    sampleWith f cfg logPost grad feed z u s =
      match iteration cfg logPost grad feed z u s with
      | none => .diverges
      | some r => .ok r.1 r.2 := by
  simp only [sampleWith]
  cases iteration cfg logPost grad feed z u s with
  | none => rfl
  | some r => exact if_neg fun hc => by rw [h] at hc; exact absurd hc.1 (by simp)

/-- A run that finishes has done the iteration. -/
theorem iteration_of_ok (f : Fetches) (cfg : Cfg α) (logPost : (C → ι → α) → C → α) (grad : (C → ι → α) → C → ι → α)
    (feed : Feed) (z : C → ι → α) (u : C → α) (s s' : State α C ι) (info : Info α C ι)
    (h : sampleWith f cfg logPost grad feed z u s = .ok s' info) :
    iteration cfg logPost grad feed z u s = some (s', info) := by
  simp only [sampleWith] at h
  split at h
  · exact absurd h (by simp)
  · rename_i a b hab
    split at h
    · exact absurd h (by simp)
    · simp only [Outcome.ok.injEq] at h
      rw [hab, h.1, h.2]

/-- C119.  What is fetched does not change a run that would finish with everything fetched: the variables and the statistics are
the same. -/
theorem C119_same (f : Fetches) (cfg : Cfg α) (logPost : (C → ι → α) → C → α) (grad : (C → ι → α) → C → ι → α)
    (feed : Feed) (z : C → ι → α) (u : C → α) (s s' : State α C ι) (info : Info α C ι)
    (h : sample cfg logPost grad feed z u s = .ok s' info) :
    sampleWith f cfg logPost grad feed z u s = .ok s' info := by
  rw [← C119_fetched ⟨true, true, true, true, true, true, true, true⟩ (Or.inl rfl)] at h
  simp only [sampleWith] at h ⊢
  cases hi : iteration cfg logPost grad feed z u s with
  | none => rw [hi] at h; exact h
  | some r =>
    rw [hi] at h
    simp only at h ⊢
    split at h
    · exact absurd h (by simp)
    · rename_i hn
      rw [if_neg fun hc => hn ⟨rfl, hc.2⟩]
      exact h

end General

/-- The old log density of the statistics is the log density at the start, whether or not it is finite. -/
theorem origLogProb_eq (cfg : Cfg XF) (logPost : (C → ι → XF) → C → XF) (grad : (C → ι → XF) → C → ι → XF) (feed : Feed)
    (z : C → ι → XF) (u : C → XF) (s s' : State XF C ι) (info : Info XF C ι)
    (h : iteration cfg logPost grad feed z u s = some (s', info)) (c : C) : info.origLogProb c = logPost s.q c := by
  simp only [iteration, Option.map_eq_some_iff, Prod.mk.injEq] at h
  obtain ⟨eps, -, -, rfl⟩ := h
  simp only [transition, getAcceptanceRate, hamiltonian]
  cases logPost s.q c <;> simp [XF.neg]

/-- C119.  A run that fetches a log density never finishes from a start where the log density of a chain is infinite or NaN, and
if the step size is not adapted it ends with the error. -/
theorem C119_raises_partial (f : Fetches) (hf : f.origLogProb = true ∨ f.logProb = true) (cfg : Cfg XF)
    (logPost : (C → ι → XF) → C → XF) (grad : (C → ι → XF) → C → ι → XF) (feed : Feed) (z : C → ι → XF) (u : C → XF)
    (s : State XF C ι) (c : C) (h : logPost s.q c = nan ∨ logPost s.q c = inf ∨ logPost s.q c = ninf) :
    (∀ s' info, sampleWith f cfg logPost grad feed z u s ≠ .ok s' info) ∧
    (cfg.adaptsStep = false → sampleWith f cfg logPost grad feed z u s = .numericError) := by
  have hc : f.checked = true := by rcases hf with h | h <;> simp [Fetches.checked, h]
  have hn : ¬Flt.isFinite (logPost s.q c) := by rcases h with h | h | h <;> rw [h] <;> exact id
  constructor
  · rw [C119_fetched f hf]
    exact C51_bad_start cfg logPost grad feed z u s c hn
  · intro ha
    simp only [sampleWith]
    cases hi : iteration cfg logPost grad feed z u s with
    | none => simp [iteration, usedStepSize, ha] at hi
    | some r =>
      obtain ⟨s', info⟩ := r
      simp only
      exact if_pos ⟨hc, c, by rw [origLogProb_eq cfg logPost grad feed z u s s' info hi c]; exact hn⟩

/-- The rate of a proposal from a start of log density NaN or `+inf`. -/
theorem rate_stuck (oldLogPost newLogPost : XF) (p newP mass : ι → XF) (h : oldLogPost = nan ∨ oldLogPost = inf) :
    (getAcceptanceRate oldLogPost newLogPost p newP mass).rate = fin 0 := by
  simp only [getAcceptanceRate, hamiltonian]
  generalize (Flt.ofReal 0.5 * Flt.sum fun i => p i * p i / mass i : XF) = k
  generalize (-newLogPost + Flt.ofReal 0.5 * Flt.sum fun i => newP i * newP i / mass i : XF) = n
  generalize (-(-newLogPost) : XF) = l
  simp only [acceptanceRate]
  rcases h with rfl | rfl <;> cases k <;> cases n <;> cases l <;>
    simp [XF.neg, XF.add, Flt.minimum, Flt.exp, Flt.isFinite, XF.minimum, XF.exp, XF.isFinite]

/-- One iteration does not move a chain whose log density is NaN or `+inf`. -/
theorem iteration_stuck (cfg : Cfg XF) (logPost : (C → ι → XF) → C → XF) (grad : (C → ι → XF) → C → ι → XF) (feed : Feed)
    (z : C → ι → XF) (u : C → XF) (s s' : State XF C ι) (info : Info XF C ι) (c : C)
    (hu : ∃ r : ℝ, 0 ≤ r ∧ u c = fin r) (h : logPost s.q c = nan ∨ logPost s.q c = inf)
    (hi : iteration cfg logPost grad feed z u s = some (s', info)) :
    s'.q c = s.q c ∧ info.acceptanceRate c = fin 0 := by
  simp only [iteration, Option.map_eq_some_iff, Prod.mk.injEq] at hi
  obtain ⟨eps, -, rfl, rfl⟩ := hi
  obtain ⟨r, hr, hur⟩ := hu
  have h0 := rate_stuck (logPost s.q c)
    (logPost (leapfrog (adaptMass cfg feed (s.t + 1) s.q s.ewmv).2 grad cfg.nLeapfrogs eps
      (s.q, randomMomentum z (adaptMass cfg feed (s.t + 1) s.q s.ewmv).2)).1 c)
    (randomMomentum z (adaptMass cfg feed (s.t + 1) s.q s.ewmv).2 c)
    ((leapfrog (adaptMass cfg feed (s.t + 1) s.q s.ewmv).2 grad cfg.nLeapfrogs eps
      (s.q, randomMomentum z (adaptMass cfg feed (s.t + 1) s.q s.ewmv).2)).2 c)
    (adaptMass cfg feed (s.t + 1) s.q s.ewmv).2 h
  refine ⟨funext fun i => ?_, h0⟩
  refine if_neg fun hlt => ?_
  have hlt : Flt.lt (u c) (fin 0) := by rw [← h0]; exact hlt
  rw [hur] at hlt
  exact hr.not_gt hlt

/-- C119, finding.  A run that fetches neither log density finishes from any start unless the search for a step size goes on for
ever, which needs step-size adaptation.  A chain whose log density is NaN or `+inf` is left where it is, and its acceptance rate
is 0. -/
theorem C119_silent_refuted (f : Fetches) (h1 : f.origLogProb = false) (h2 : f.logProb = false) (cfg : Cfg XF)
    (logPost : (C → ι → XF) → C → XF) (grad : (C → ι → XF) → C → ι → XF) (feed : Feed) (z : C → ι → XF) (u : C → XF)
    (s : State XF C ι) :
    sampleWith f cfg logPost grad feed z u s ≠ .numericError ∧
    (cfg.adaptsStep = false → ∃ s' info, sampleWith f cfg logPost grad feed z u s = .ok s' info) ∧
    (∀ s' info c, (∃ r : ℝ, 0 ≤ r ∧ u c = fin r) → logPost s.q c = nan ∨ logPost s.q c = inf →
      sampleWith f cfg logPost grad feed z u s = .ok s' info → s'.q c = s.q c ∧ info.acceptanceRate c = fin 0) := by
  have hc : f.checked = false := by simp [Fetches.checked, h1, h2]
  rw [sampleWith_unchecked f hc]
  refine ⟨?_, ?_, ?_⟩
  · split <;> simp
  · intro ha
    cases hi : iteration cfg logPost grad feed z u s with
    | none => simp [iteration, usedStepSize, ha] at hi
    | some r => exact ⟨r.1, r.2, rfl⟩
  · intro s' info c hu h hs
    cases hi : iteration cfg logPost grad feed z u s with
    | none => rw [hi] at hs; exact absurd hs (by simp)
    | some r =>
      rw [hi] at hs
      simp only [Outcome.ok.injEq] at hs
      refine iteration_stuck cfg logPost grad feed z u s s' info c hu h ?_
      rw [hi, ← hs.1, ← hs.2]

/-- C119, finding.  Over any number of runs, whatever is fetched and fed in each of them, a chain that starts where its log density
is NaN or `+inf` is still there at the end. -/
theorem C119_stuck (cfg : Cfg XF) (logPost : (C → ι → XF) → C → XF) (grad : (C → ι → XF) → C → ι → XF) (c : C)
    (hown : ∀ q q' : C → ι → XF, q c = q' c → logPost q c = logPost q' c) (ws : List (Call XF C ι))
    (hu : ∀ w ∈ ws, ∃ r : ℝ, 0 ≤ r ∧ w.u c = fin r) (s s' : State XF C ι)
    (h : logPost s.q c = nan ∨ logPost s.q c = inf) (hs : runCalls cfg logPost grad ws s = some s') :
    s'.q c = s.q c := by
  induction ws generalizing s with
  | nil =>
    simp only [runCalls, Option.some.injEq] at hs
    rw [hs]
  | cons w ws ih =>
    simp only [runCalls] at hs
    split at hs
    · rename_i s1 info h1
      have hi := iteration_of_ok _ _ _ _ _ _ _ _ _ _ h1
      have e := (iteration_stuck cfg logPost grad w.feed w.z w.u s s1 info c (hu w (by simp)) h hi).1
      rw [← e]
      refine ih (fun w' hw' => hu w' (by simp [hw'])) s1 ?_ hs
      rw [hown _ _ e]
      exact h
    · exact absurd hs (by simp)
    · exact absurd hs (by simp)

/-- C119.  From a start of log density `-inf` the first proposal with a finite log density and energy is accepted with
probability 1: the chain leaves the region without an error being raised. -/
theorem C119_escapes (f : Fetches) (h1 : f.origLogProb = false) (h2 : f.logProb = false) (cfg : Cfg XF)
    (ha : cfg.adaptsStep = false) (hm : cfg.adaptsMass = false)
    (logPost : (C → ι → XF) → C → XF) (grad : (C → ι → XF) → C → ι → XF) (feed : Feed) (z : C → ι → XF) (u : C → XF)
    (s : State XF C ι) (c : C) (hz : ∀ i, ∃ r : ℝ, z c i = fin r) (hu : ∃ r : ℝ, r < 1 ∧ u c = fin r)
    (h : logPost s.q c = ninf) (x : (C → ι → XF) × (C → ι → XF))
    (hx : x = leapfrog (fun _ => fin 1) grad cfg.nLeapfrogs s.stepSize (s.q, randomMomentum z fun _ => fin 1))
    (hl : ∃ r : ℝ, logPost x.1 c = fin r) (hp : ∀ i, ∃ r : ℝ, x.2 c i = fin r) :
    ∃ s' info, sampleWith f cfg logPost grad feed z u s = .ok s' info ∧ s'.q c = x.1 c ∧
      info.acceptanceRate c = fin 1 := by
  classical
  have hc : f.checked = false := by simp [Fetches.checked, h1, h2]
  have kin : ∀ g : ι → XF, (∀ i, ∃ r : ℝ, g i = fin r) →
      ∃ r : ℝ, (Flt.ofReal 0.5 * Flt.sum fun i => g i * g i / (fin 1 : XF) : XF) = fin r := by
    intro g hg
    choose r hr using hg
    have e : (fun i => g i * g i / (fin 1 : XF) : ι → XF) = fun i => fin (r i * r i / 1) := by
      funext i
      rw [hr i]
      simp [XF.mul, XF.div]
    rw [e]
    have hsum : ∀ t : Finset ι, ∃ y : ℝ, (∑ i ∈ t, (fin (r i * r i / 1) : XF)) = fin y := by
      intro t
      induction t using Finset.induction_on with
      | empty => exact ⟨0, rfl⟩
      | insert i t hi ih =>
        obtain ⟨y, hy⟩ := ih
        exact ⟨r i * r i / 1 + y, by rw [Finset.sum_insert hi, hy]; rfl⟩
    obtain ⟨y, hy⟩ := hsum Finset.univ
    have : (Flt.sum fun i => (fin (r i * r i / 1) : XF)) = fin y := hy
    rw [this]
    exact ⟨0.5 * y, rfl⟩
  have hp0 : ∀ i, ∃ r : ℝ, randomMomentum z (fun _ => (fin 1 : XF)) c i = fin r := by
    intro i
    obtain ⟨r, hr⟩ := hz i
    refine ⟨r * Real.sqrt 1, ?_⟩
    simp only [randomMomentum, hr]
    show XF.mul (fin r) (XF.sqrt (fin 1)) = _
    simp only [XF.sqrt]
    rw [if_neg (by norm_num)]
    rfl
  have hrate : (getAcceptanceRate (logPost s.q c) (logPost x.1 c) (randomMomentum z (fun _ => (fin 1 : XF)) c) (x.2 c)
      fun _ => fin 1).rate = fin 1 := by
    obtain ⟨k0, hk0⟩ := kin _ hp0
    obtain ⟨k1, hk1⟩ := kin _ hp
    obtain ⟨l, hl⟩ := hl
    simp only [getAcceptanceRate, hamiltonian, h, hl]
    rw [hk0, hk1]
    simp [acceptanceRate, XF.neg, XF.add, Flt.minimum, Flt.exp, Flt.isFinite, XF.minimum, XF.exp, XF.isFinite]
  rw [sampleWith_unchecked f hc]
  simp only [iteration, usedStepSize, adaptMass, ha, hm, Bool.false_eq_true, if_false, Option.map_some]
  refine ⟨_, _, rfl, ?_, ?_⟩
  · funext i
    subst hx
    refine if_pos ?_
    obtain ⟨r, hr, hur⟩ := hu
    show Flt.lt (u c) (getAcceptanceRate (logPost s.q c) _ _ _ _).rate
    rw [hur]
    erw [hrate]
    exact hr
  · subst hx
    exact hrate

open Checked in
/-- C83.  Over any number of runs, whatever is fetched and fed, and whatever the other chains do: a chain that starts at a value in
the interior of the support of a factor, as far as `log_prob` can tell, ends at one. -/
theorem C83_hmc_runs (d : Checked.Dist ℝ) (hd : d.Valid) (val : (ι → XF) → d.toX.Val) (rest : (C → ι → XF) → C → XF) (cfg : Cfg XF)
    (grad : (C → ι → XF) → C → ι → XF) (c : C) (ws : List (Call XF C ι)) (hu : ∀ w ∈ ws, ∃ r : ℝ, 0 ≤ r ∧ w.u c = fin r)
    (s s' : State XF C ι) (h : ∃ y : d.Val, val (s.q c) = d.valX y ∧ d.Plausible y)
    (hs : runCalls cfg (fun q c => rest q c + (d.toX.logProb false (val (q c))).val) grad ws s = some s') :
    ∃ y : d.Val, val (s'.q c) = d.valX y ∧ d.Plausible y := by
  induction ws generalizing s with
  | nil =>
    simp only [runCalls, Option.some.injEq] at hs
    rwa [← hs]
  | cons w ws ih =>
    simp only [runCalls] at hs
    split at hs
    · rename_i s1 info h1
      refine ih (fun w' hw' => hu w' (by simp [hw'])) s1 ?_ hs
      have hi := iteration_of_ok _ _ _ _ _ _ _ _ _ _ h1
      simp only [iteration, Option.map_eq_some_iff, Prod.mk.injEq] at hi
      obtain ⟨eps, -, rfl, -⟩ := hi
      rcases accepted cfg.nLeapfrogs (fun q c => rest q c + (d.toX.logProb false (val (q c))).val) grad
        (adaptMass cfg w.feed (s.t + 1) s.q s.ewmv).2 eps s.q
        (randomMomentum w.z (adaptMass cfg w.feed (s.t + 1) s.q s.ewmv).2) w.u c (hu w (by simp)) with e | ⟨y, e, hy⟩
      · rwa [← e] at h
      · refine C83_finite_partial d hd _ ?_
        dsimp only
        rw [e]
        exact ((add_isFinite _ _).1 hy).2
    · exact absurd hs (by simp)
    · exact absurd hs (by simp)

/-- The hypotheses are met: two chains on the line, the first one at a NaN, the second with a standard normal density.  Fetching
only `sample_op` raises nothing in any number of runs, and fetching `log_prob` raises the error. -/
example (n : ℕ) (t : TunerCfg XF) (z : Bool → Unit → XF) (s : State XF Bool Unit) (hs : s.q false () = nan) (k : ℕ) :
    let cfg : Cfg XF := ⟨n, fin 0.8, t, false, false, 0, fin 0.9⟩
    let l : (Bool → Unit → XF) → Bool → XF := fun q c => -(q c () * q c ()) * fin 0.5
    let g : (Bool → Unit → XF) → Bool → Unit → XF := fun q c _ => -(q c ())
    let none : Fetches := ⟨false, false, false, false, false, false, false, false⟩
    (∃ s', runCalls cfg l g (List.replicate k ⟨none, ⟨false, false⟩, z, fun _ => fin 0.5⟩) s = some s' ∧
      s'.q false = s.q false) ∧
    sampleWith { none with logProb := true } cfg l g ⟨false, false⟩ z (fun _ => fin 0.5) s = .numericError := by
  intro cfg l g none
  have hl : ∀ q : Bool → Unit → XF, q false () = nan → l q false = nan := by
    intro q hq
    simp only [l, hq]
    rfl
  have hrun : ∀ s : State XF Bool Unit, ∃ s',
      runCalls cfg l g (List.replicate k ⟨none, ⟨false, false⟩, z, fun _ => fin 0.5⟩) s = some s' := by
    induction k with
    | zero => exact fun s => ⟨s, rfl⟩
    | succ k ih =>
      intro s
      obtain ⟨s1, info, h1⟩ := (C119_silent_refuted none rfl rfl cfg l g ⟨false, false⟩ z (fun _ => fin 0.5) s).2.1 rfl
      obtain ⟨s', h'⟩ := ih s1
      exact ⟨s', by simp only [List.replicate_succ, runCalls, h1]; exact h'⟩
  obtain ⟨s', h'⟩ := hrun s
  refine ⟨⟨s', h', ?_⟩, ?_⟩
  · refine C119_stuck cfg l g false (fun q q' h => by simp only [l, h]) _ (fun w hw => ?_) s s' (Or.inl (hl _ hs)) h'
    rw [List.eq_of_mem_replicate hw]
    exact ⟨0.5, by norm_num, rfl⟩
  · exact (C119_raises_partial { none with logProb := true } (Or.inr rfl) cfg l g ⟨false, false⟩ z (fun _ => fin 0.5) s false
      (Or.inl (hl _ hs))).2 rfl

/-- The hypotheses are met: an exponential density, one leapfrog step of size 1 from 0, where the log density is taken to be
`-inf`, with momentum 1. -/
example (t : TunerCfg XF) (w : Tuner XF) (e : Ewmv XF Unit) :
    let l : (Unit → Unit → XF) → Unit → XF := fun q c => match q c () with
      | fin r => if r ≤ 0 then ninf else fin (-r)
      | _ => nan
    ∃ s' info, sampleWith ⟨true, true, true, false, false, false, false, false⟩
      ⟨1, fin 0.8, t, false, false, 0, fin 0.9⟩ l (fun _ _ _ => fin (-1)) ⟨false, false⟩ (fun _ _ => fin 1)
      (fun _ => fin 0.5) ⟨fun _ _ => fin 0, 0, fin 1, w, e⟩ = .ok s' info ∧ s'.q () () = fin 0.5 := by
  intro l
  have hx : leapfrog (C := Unit) (ι := Unit) (fun _ => fin 1) (fun _ _ _ => fin (-1)) 1 (fin 1)
      (fun _ _ => fin 0, randomMomentum (fun _ _ => fin 1) fun _ => fin 1) =
      (fun _ _ => fin 0.5, fun _ _ => fin 0) := by
    have hm : (randomMomentum (fun _ _ => fin 1) fun _ => fin 1 : Unit → Unit → XF) = fun _ _ => fin 1 := by
      funext c i
      show XF.mul (fin 1) (XF.sqrt (fin 1)) = _
      simp only [XF.sqrt]
      rw [if_neg (by norm_num)]
      simp [XF.mul]
    rw [hm]
    simp only [leapfrog, List.range_succ, List.range_zero, List.nil_append, List.cons_append, List.foldl_cons,
      List.foldl_nil, leapfrogIntegrator, velocity]
    simp [XF.add, XF.mul, XF.div]
    norm_num
  obtain ⟨s', info, h1, h2, -⟩ := C119_escapes ⟨true, true, true, false, false, false, false, false⟩ rfl rfl
    ⟨1, fin 0.8, t, false, false, 0, fin 0.9⟩ rfl rfl l (fun _ _ _ => fin (-1)) ⟨false, false⟩ (fun _ _ => fin 1)
    (fun _ => fin 0.5) ⟨fun _ _ => fin 0, 0, fin 1, w, e⟩ () (fun _ => ⟨1, rfl⟩) ⟨0.5, by norm_num, rfl⟩
    (by simp [l]) _ rfl
    (by simp only [hx, l]; exact ⟨-0.5, if_neg (by norm_num)⟩) (by simp only [hx]; exact fun _ => ⟨0, rfl⟩)
  exact ⟨s', info, h1, by rw [h2]; simp only [hx]⟩

end ZhuSuan.Hmc
