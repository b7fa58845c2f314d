import Verif.Model.HmcShared
import Verif.Props.HmcFetch

/-!
# C123  Several sampling operations of one HMC instance

The property: the operations that several calls of `sample` on one HMC instance return behave as if each had an instance of its own.
That holds if neither the step size nor the mass is adapted.  With adaptation the operations share the counter and the step size: an
operation that is first run after another one does not search for a step size, and if the other one has used up the window in which
variances are collected, a single chain is frozen for ever.
-/

set_option autoImplicit false

namespace ZhuSuan.Hmc
open XF Checked

variable {K C ι : Type} [DecidableEq K] [Fintype C] [Fintype ι]

section General
variable {α : Type} [Add α] [Sub α] [Neg α] [Mul α] [Div α] [Flt α]

/-- The runs of one operation. -/
def callsOf (k : K) (ws : List (K × Call α C ι)) : List (Call α C ι) := (ws.filter fun w => w.1 = k).map Prod.snd

/-- C123, partial: without adaptation, in every interleaving of the runs of the operations that finishes, each operation does what it
would do alone, with an instance of its own.  Missing: adaptation, for which the claim is false (`C123_search_refuted`,
`C123_frozen_refuted`). -/
theorem C123_fixed_partial (cfg : Cfg α) (h1 : cfg.adaptsStep = false) (h2 : cfg.adaptsMass = false)
    (logPost : K → (C → ι → α) → C → α) (grad : K → (C → ι → α) → C → ι → α) (ws : List (K × Call α C ι)) (x x' : Shared α K C ι)
    (h : runShared cfg logPost grad ws x = some x') (k : K) :
    runCalls cfg (logPost k) (grad k) (callsOf k ws) (x.get k) = some (x'.get k) := by
  induction ws generalizing x with
  | nil =>
    simp only [runShared, Option.some.injEq] at h
    subst h
    rfl
  | cons w ws ih =>
    obtain ⟨j, w⟩ := w
    simp only [runShared] at h
    split at h
    · rename_i s1 info hs
      have hi := iteration_of_ok _ _ _ _ _ _ _ _ _ _ hs
      have e : s1.t = x.t ∧ s1.stepSize = x.stepSize ∧ s1.tuner = x.tuner := by
        simp only [iteration, h1, h2, Option.map_eq_some_iff, Prod.mk.injEq] at hi
        obtain ⟨eps, -, rfl, -⟩ := hi
        exact ⟨rfl, rfl, rfl⟩
      by_cases hj : j = k
      · subst hj
        have hc : callsOf j ((j, w) :: ws) = w :: callsOf j ws := by simp [callsOf]
        rw [hc]
        simp only [runCalls, hs]
        have := ih _ h
        simpa [Shared.get, Shared.set] using this
      · have hc : callsOf k ((j, w) :: ws) = callsOf k ws := by simp [callsOf, hj]
        rw [hc]
        have := ih _ h
        have hg : (x.set j s1).get k = x.get k := by
          simp [Shared.get, Shared.set, Function.update_of_ne (Ne.symm hj), e.1, e.2.1, e.2.2]
        rwa [hg] at this
    · exact absurd h (by simp)
    · exact absurd h (by simp)

/-- C123, finding.  With adaptation the counter counts the runs of all operations. -/
theorem C123_counter (cfg : Cfg α) (h1 : cfg.adaptsStep = true ∨ cfg.adaptsMass = true)
    (logPost : K → (C → ι → α) → C → α) (grad : K → (C → ι → α) → C → ι → α) (ws : List (K × Call α C ι)) (x x' : Shared α K C ι)
    (h : runShared cfg logPost grad ws x = some x') : x'.t = x.t + ws.length := by
  induction ws generalizing x with
  | nil =>
    simp only [runShared, Option.some.injEq] at h
    subst h
    rfl
  | cons w ws ih =>
    obtain ⟨j, w⟩ := w
    simp only [runShared] at h
    split at h
    · rename_i s1 info hs
      have hi := iteration_of_ok _ _ _ _ _ _ _ _ _ _ hs
      have e : s1.t = x.t + 1 := by
        simp only [iteration, Option.map_eq_some_iff, Prod.mk.injEq] at hi
        obtain ⟨eps, -, rfl, -⟩ := hi
        have : (cfg.adaptsStep || cfg.adaptsMass) = true := by simpa using h1
        simp [this, Shared.get]
      rw [ih _ h]
      simp only [Shared.set, e, List.length_cons]
      omega
    · exact absurd h (by simp)
    · exact absurd h (by simp)

/-- C123, finding.  An operation alone searches for a step size in its first run.  After one or more runs of other operations it does
not, unless its run happens to be the one at the end of the collection window: it takes the step size they left. -/
theorem C123_search_refuted (cfg : Cfg α) (h1 : cfg.adaptsStep = true)
    (logPost : K → (C → ι → α) → C → α) (grad : K → (C → ι → α) → C → ι → α) (ws : List (K × Call α C ι)) (x x' : Shared α K C ι)
    (hx : x.t = 0) (hws : ws ≠ []) (h : runShared cfg logPost grad ws x = some x') (hm : ws.length + 1 ≠ cfg.massCollect) (k : K)
    (mass : ι → α) (q p : C → ι → α) :
    usedStepSize cfg (logPost k) (grad k) ((x.get k).t + 1) mass q p (x.get k).stepSize =
      initStepSize (trialRate (logPost k) (grad k) mass q p) cfg.target x.stepSize ∧
    usedStepSize cfg (logPost k) (grad k) ((x'.get k).t + 1) mass q p (x'.get k).stepSize = some x'.stepSize := by
  have hl : ws.length ≠ 0 := by simpa using hws
  have ht := C123_counter cfg (.inl h1) logPost grad ws x x' h
  constructor
  · simp [usedStepSize, h1, ifInitialize, Shared.get, hx]
  · have : ifInitialize cfg ((x'.get k).t + 1) = false := by
      simp only [ifInitialize, Shared.get, ht, hx, Nat.zero_add, Bool.or_eq_false_iff, beq_eq_false_iff_ne]
      exact ⟨by omega, hm⟩
    simp only [usedStepSize, h1, this, if_true, Bool.false_eq_true, if_false]
    rfl

/-- C123, finding.  The step size that an operation reports as updated is the one that every other operation starts from. -/
theorem C123_passed_on (cfg : Cfg α) (logPost : K → (C → ι → α) → C → α) (grad : K → (C → ι → α) → C → ι → α) (j : K) (w : Call α C ι)
    (x x' : Shared α K C ι) (h : runShared cfg logPost grad [(j, w)] x = some x') :
    ∃ s' info, sampleWith w.fetches cfg (logPost j) (grad j) w.feed w.z w.u (x.get j) = .ok s' info ∧
      x'.q j = info.samples ∧ ∀ k, (x'.get k).stepSize = info.updatedStepSize ∧ (k ≠ j → x'.q k = x.q k) := by
  simp only [runShared] at h
  split at h
  · rename_i s1 info hs
    simp only [Option.some.injEq] at h
    subst h
    refine ⟨s1, info, hs, ?_⟩
    have hi := iteration_of_ok _ _ _ _ _ _ _ _ _ _ hs
    simp only [iteration, Option.map_eq_some_iff, Prod.mk.injEq] at hi
    obtain ⟨eps, -, rfl, rfl⟩ := hi
    exact ⟨by simp only [Shared.set, Function.update_self], fun k => ⟨rfl, fun hk => by simp only [Shared.set, Function.update_of_ne hk]⟩⟩
  · exact absurd h (by simp)
  · exact absurd h (by simp)

/-- C123, the part that holds in every configuration.  Runs of other operations change neither the samples of an operation nor its
estimate of the variances. -/
theorem C123_untouched_partial (cfg : Cfg α) (logPost : K → (C → ι → α) → C → α) (grad : K → (C → ι → α) → C → ι → α) (k : K)
    (ws : List (K × Call α C ι)) (hk : ∀ w ∈ ws, w.1 ≠ k) (x x' : Shared α K C ι)
    (h : runShared cfg logPost grad ws x = some x') : x'.q k = x.q k ∧ x'.ewmv k = x.ewmv k := by
  induction ws generalizing x with
  | nil =>
    simp only [runShared, Option.some.injEq] at h
    subst h
    exact ⟨rfl, rfl⟩
  | cons w ws ih =>
    obtain ⟨j, w⟩ := w
    have hj : k ≠ j := fun e => hk (j, w) List.mem_cons_self e.symm
    simp only [runShared] at h
    split at h
    · obtain ⟨h1, h2⟩ := ih (fun w' hw => hk w' (List.mem_cons_of_mem _ hw)) _ h
      rw [h1, h2]
      simp only [Shared.set, Function.update_of_ne hj, and_self]
    · exact absurd h (by simp)
    · exact absurd h (by simp)

end General

/-- What holds of the estimator of an operation with one chain that does not move. -/
def Still (q : ι → ℝ) (e : Ewmv XF ι) : Prop :=
  (∀ i, e.var i = fin 0) ∧ ∃ n : ℕ, e.t = fin n ∧ ((n = 0 ∧ ∀ i, e.mean i = fin 0) ∨ ∀ i, e.mean i = fin (q i))

omit [Fintype ι] in
theorem still_update (d : ℝ) (hd0 : 0 < d) (hd1 : d < 1) (q : ι → ℝ) (e : Ewmv XF ι) (h : Still q e) :
    Still q (e.update (C := Unit) (fin d) fun _ i => fin (q i)) := by
  obtain ⟨hv, n, ht, hm⟩ := h
  have hp : d ^ ((n : ℝ) + 1) < 1 := Real.rpow_lt_one hd0.le hd1 (by positivity)
  have hpow : Real.rpow d ((n : ℝ) + 1) < 1 := hp
  have hne : (1 : ℝ) - Real.rpow d ((n : ℝ) + 1) ≠ 0 := by linarith
  have et : e.t + Flt.ofReal 1 = fin ((n : ℝ) + 1) := by rw [ht]; rfl
  have ew : (Flt.ofReal 1 - fin d) / (Flt.ofReal 1 - Flt.pow (fin d) (e.t + Flt.ofReal 1)) =
      fin ((1 - d) / (1 - Real.rpow d ((n : ℝ) + 1))) := by
    rw [et]
    show (fin 1 - fin d) / (fin 1 - fin (Real.rpow d ((n : ℝ) + 1))) = _
    rw [fin_sub, fin_sub, fin_div _ _ hne]
  have hone : ∀ r : ℝ, (chainMean fun _ : Unit => fin r) = fin r := fun r => by
    show (∑ _i : Unit, fin r) / fin ((Fintype.card Unit : ℕ) : ℝ) = _
    rw [fin_sum, fin_div _ _ (by simp)]
    simp
  have hw : n = 0 → (1 - d) / (1 - Real.rpow d ((n : ℝ) + 1)) = 1 := by
    rintro rfl
    have : Real.rpow d (((0 : ℕ) : ℝ) + 1) = d := by
      show d ^ (((0 : ℕ) : ℝ) + 1) = d
      simp
    rw [this, div_self (by linarith)]
  have key : ∀ i, ∃ m0 : ℝ, e.mean i = fin m0 ∧ m0 + (1 - d) / (1 - Real.rpow d ((n : ℝ) + 1)) * (q i - m0) = q i := by
    intro i
    rcases hm with ⟨h0, hm⟩ | hm
    · exact ⟨0, hm i, by rw [hw h0]; ring⟩
    · exact ⟨q i, hm i, by ring⟩
  have hmean : ∀ i, (e.update (C := Unit) (fin d) fun _ i => fin (q i)).mean i = fin (q i) := by
    intro i
    obtain ⟨m0, hm0, hk⟩ := key i
    simp only [Ewmv.update]
    rw [ew, hm0]
    simp only [fin_sub, fin_mul, hone, fin_add, hk]
  refine ⟨fun i => ?_, n + 1, ?_, .inr hmean⟩
  · obtain ⟨m0, hm0, hk⟩ := key i
    have e1 : (e.update (C := Unit) (fin d) fun _ i => fin (q i)).var i =
        (Flt.ofReal 1 - (Flt.ofReal 1 - fin d) / (Flt.ofReal 1 - Flt.pow (fin d) (e.t + Flt.ofReal 1))) * e.var i +
        chainMean fun _ : Unit => (Flt.ofReal 1 - fin d) / (Flt.ofReal 1 - Flt.pow (fin d) (e.t + Flt.ofReal 1)) *
          (fin (q i) - e.mean i) * (fin (q i) - (e.update (C := Unit) (fin d) fun _ i => fin (q i)).mean i) := rfl
    rw [e1, hmean, ew, hv, hm0]
    simp only [fin_sub, fin_mul, hone, sub_self, mul_zero]
    show (fin 1 - _) * fin 0 + fin 0 = _
    simp [XF.mul, XF.add]
  · rw [Nat.cast_add, Nat.cast_one]
    exact et

/-- C123, finding.  One chain, with adaptation of the mass: an operation that is first run when the runs of the others have used up
the collection window never moves, whatever is run, fetched and fed afterwards.  (Alone it would be run with unit mass first.) -/
theorem C123_frozen_refuted (cfg : Cfg XF) (h1 : cfg.adaptsMass = true) (d : ℝ) (hd0 : 0 < d) (hd1 : d < 1)
    (hd : cfg.massDecay = fin d) (logPost : K → (Unit → ι → XF) → Unit → XF) (grad : K → (Unit → ι → XF) → Unit → ι → XF)
    (k : K) (i : ι) (q : ι → ℝ) (x x' : Shared XF K Unit ι) (hq : ∀ c i, x.q k c i = fin (q i)) (he : x.ewmv k = Ewmv.init)
    (ht : cfg.massCollect ≤ x.t + 1) (ws : List (K × Call XF Unit ι)) (hz : ∀ w ∈ ws, ∀ c i, ∃ r : ℝ, w.2.z c i = fin r)
    (hu : ∀ w ∈ ws, ∀ c, ∃ r : ℝ, 0 ≤ r ∧ w.2.u c = fin r) (h : runShared cfg logPost grad ws x = some x') :
    x'.q k = x.q k := by
  have hs : Still q (x.ewmv k) := by
    rw [he]
    exact ⟨fun _ => rfl, 0, by simp [Ewmv.init], .inl ⟨rfl, fun _ => rfl⟩⟩
  clear he
  induction ws generalizing x with
  | nil =>
    simp only [runShared, Option.some.injEq] at h
    rw [h]
  | cons w ws ih =>
    obtain ⟨j, w⟩ := w
    simp only [runShared] at h
    split at h
    · rename_i s1 info hs1
      have hi := iteration_of_ok _ _ _ _ _ _ _ _ _ _ hs1
      have hz' : ∀ w ∈ ws, ∀ c i, ∃ r : ℝ, w.2.z c i = fin r := fun w hw => hz w (by simp [hw])
      have hu' : ∀ w ∈ ws, ∀ c, ∃ r : ℝ, 0 ≤ r ∧ w.2.u c = fin r := fun w hw => hu w (by simp [hw])
      obtain ⟨eps, e1, e2, e3⟩ : ∃ eps, s1.t = x.t + 1 ∧
          s1.ewmv = (adaptMass cfg w.feed ((x.get j).t + 1) (x.get j).q (x.get j).ewmv).1 ∧
          s1.q = (transition cfg.nLeapfrogs (logPost j) (grad j) (adaptMass cfg w.feed ((x.get j).t + 1) (x.get j).q (x.get j).ewmv).2
            eps (x.get j).q (randomMomentum w.z (adaptMass cfg w.feed ((x.get j).t + 1) (x.get j).q (x.get j).ewmv).2) w.u).newQ := by
        simp only [iteration, Option.map_eq_some_iff, Prod.mk.injEq] at hi
        obtain ⟨eps, -, rfl, -⟩ := hi
        exact ⟨eps, by simp [h1, Shared.get], rfl, rfl⟩
      have htt : cfg.massCollect ≤ (x.set j s1).t + 1 := by
        simp only [Shared.set, e1]
        omega
      by_cases hj : j = k
      · subst hj
        have hS : Still q (adaptMass cfg w.feed ((x.get j).t + 1) (x.get j).q (x.get j).ewmv).1 := by
          simp only [adaptMass, h1, if_true, hd]
          have hq' : (x.get j).q = fun _ i => fin (q i) := funext fun c => funext fun i => hq c i
          rw [hq']
          split
          · exact still_update d hd0 hd1 q _ hs
          · exact hs
        have hmass : (adaptMass cfg w.feed ((x.get j).t + 1) (x.get j).q (x.get j).ewmv).2 i = inf := by
          have hv := hS.1 i
          simp only [adaptMass, h1, if_true] at hv ⊢
          rw [if_neg (by simp only [Shared.get]; omega)]
          simp only [precision, hv]
          show XF.div (fin 1) (fin 0) = inf
          simp [XF.div, XF.infSign]
        have hfr := frozen cfg.nLeapfrogs _ i hmass eps (logPost j) (grad j) (x.get j).q w.z (fun c => hz (j, w) (by simp) c i) w.u
          (hu (j, w) (by simp))
        have e := ih _ (by
          intro c i
          simp only [Shared.set, Function.update_self]
          rw [e3, hfr]
          exact hq c i) htt hz' hu' h (by simpa only [Shared.set, Function.update_self, e2] using hS)
        rw [e]
        simp only [Shared.set, Function.update_self]
        rw [e3, hfr]
        rfl
      · have e := ih _ (by
          intro c i
          simp only [Shared.set, Function.update_of_ne (Ne.symm hj)]
          exact hq c i) htt hz' hu' h (by simpa only [Shared.set, Function.update_of_ne (Ne.symm hj)] using hs)
        rw [e]
        simp only [Shared.set, Function.update_of_ne (Ne.symm hj)]
    · exact absurd h (by simp)
    · exact absurd h (by simp)

/-- The hypotheses are met: two operations on standard normal densities, both adaptations, a window of ten runs that the operation
`false` has used up.  The run of `true` finishes and does not move. -/
example (t : TunerCfg XF) (x : Shared XF Bool Unit Unit) (hq : ∀ c i, x.q true c i = fin 3) (he : x.ewmv true = Ewmv.init) (ht : x.t = 10) :
    let cfg : Cfg XF := ⟨5, fin 0.8, t, true, true, 10, fin 0.99⟩
    let l : Bool → (Unit → Unit → XF) → Unit → XF := fun _ q c => -(q c () * q c ()) * fin 0.5
    let g : Bool → (Unit → Unit → XF) → Unit → Unit → XF := fun _ q c _ => -(q c ())
    let w : Call XF Unit Unit := ⟨⟨false, false, false, false, false, false, false, false⟩, ⟨true, true⟩, fun _ _ => fin 1, fun _ => fin 0.5⟩
    ∃ x', runShared cfg l g [(true, w)] x = some x' ∧ x'.q true = x.q true := by
  intro cfg l g w
  obtain ⟨s', info, hs⟩ : ∃ s' info, sampleWith w.fetches cfg (l true) (g true) w.feed w.z w.u (x.get true) = .ok s' info := by
    rw [sampleWith_unchecked w.fetches rfl]
    have hi : ifInitialize cfg ((x.get true).t + 1) = false := by simp [ifInitialize, Shared.get, ht, cfg]
    simp only [iteration, usedStepSize, hi, Bool.false_eq_true, if_false, ite_self, Option.map_some]
    exact ⟨_, _, rfl⟩
  have hr : runShared cfg l g [(true, w)] x = some (x.set true s') := by simp only [runShared, hs]
  refine ⟨_, hr, ?_⟩
  refine C123_frozen_refuted cfg rfl 0.99 (by norm_num) (by norm_num) rfl l g true () (fun _ => 3) x _ hq he (by simp [cfg, ht]) _ ?_ ?_ hr
  · intro w' hw' c i
    rw [List.mem_singleton.1 hw']
    exact ⟨1, rfl⟩
  · intro w' hw' c
    rw [List.mem_singleton.1 hw']
    exact ⟨0.5, by norm_num, rfl⟩

/-- The hypotheses are met: a run of one operation with adaptation leaves the samples and the variances of the other. -/
example (t : TunerCfg XF) (x : Shared XF Bool Unit Unit) (ht : x.t = 1) :
    let cfg : Cfg XF := ⟨5, fin 0.8, t, true, true, 10, fin 0.99⟩
    let l : Bool → (Unit → Unit → XF) → Unit → XF := fun _ q c => -(q c () * q c ()) * fin 0.5
    let g : Bool → (Unit → Unit → XF) → Unit → Unit → XF := fun _ q c _ => -(q c ())
    let w : Call XF Unit Unit := ⟨⟨false, false, false, false, false, false, false, false⟩, ⟨true, true⟩, fun _ _ => fin 1, fun _ => fin 0.5⟩
    ∃ x', runShared cfg l g [(true, w)] x = some x' ∧ x'.q false = x.q false ∧ x'.ewmv false = x.ewmv false := by
  intro cfg l g w
  obtain ⟨s', info, hs⟩ : ∃ s' info, sampleWith w.fetches cfg (l true) (g true) w.feed w.z w.u (x.get true) = .ok s' info := by
    rw [sampleWith_unchecked w.fetches rfl]
    have hi : ifInitialize cfg ((x.get true).t + 1) = false := by simp [ifInitialize, Shared.get, ht, cfg]
    simp only [iteration, usedStepSize, hi, Bool.false_eq_true, if_false, ite_self, Option.map_some]
    exact ⟨_, _, rfl⟩
  have hr : runShared cfg l g [(true, w)] x = some (x.set true s') := by simp only [runShared, hs]
  exact ⟨_, hr, C123_untouched_partial cfg l g false _ (fun w' hw' => by rw [List.mem_singleton.1 hw']; simp) x _ hr⟩

/-- The hypotheses are met: two operations without adaptation, run in turns any number of times. -/
example (t : TunerCfg XF) (x : Shared XF Bool Unit Unit) (ws : List (Bool × Call XF Unit Unit)) (hf : ∀ w ∈ ws, w.2.fetches.checked = false) :
    let cfg : Cfg XF := ⟨5, fin 0.8, t, false, false, 0, fin 0.99⟩
    let l : Bool → (Unit → Unit → XF) → Unit → XF := fun b q c => -(q c () * q c ()) * fin (if b then 0.5 else 2)
    let g : Bool → (Unit → Unit → XF) → Unit → Unit → XF := fun b q c _ => -(q c ()) * fin (if b then 1 else 4)
    ∃ x', runShared cfg l g ws x = some x' ∧ ∀ k, runCalls cfg (l k) (g k) (callsOf k ws) (x.get k) = some (x'.get k) := by
  intro cfg l g
  suffices h : ∃ x', runShared cfg l g ws x = some x' by
    obtain ⟨x', h⟩ := h
    exact ⟨x', h, C123_fixed_partial cfg rfl rfl l g ws x x' h⟩
  induction ws generalizing x with
  | nil => exact ⟨x, rfl⟩
  | cons w ws ih =>
    obtain ⟨k, w⟩ := w
    have hs : ∃ s' info, sampleWith w.fetches cfg (l k) (g k) w.feed w.z w.u (x.get k) = .ok s' info := by
      rw [sampleWith_unchecked w.fetches (hf (k, w) (by simp))]
      simp only [iteration, usedStepSize, cfg, Bool.false_eq_true, if_false, Option.map_some]
      exact ⟨_, _, rfl⟩
    obtain ⟨s', info, hs⟩ := hs
    simp only [runShared, hs]
    exact ih _ fun w hw => hf w (by simp [hw])

end ZhuSuan.Hmc
