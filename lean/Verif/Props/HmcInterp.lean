import Verif.Model.HmcInterp
import Verif.Props.HmcGraph
import Verif.Props.HmcFetch

/-!
# C121  The graph of an HMC iteration computes the iteration

Every order in which the step size is read before it is assigned computes `Hmc.iteration`, which the other HMC properties are about;
those are all orders if the step size is adapted in the run or was never to be adapted.
-/

set_option autoImplicit false

namespace ZhuSuan.HmcGraph
open Dataflow Hmc
open Classical

variable {α : Type} [Add α] [Sub α] [Neg α] [Mul α] [Div α] [Flt α]
variable {V C ι : Type} [Fintype C] [Fintype ι]

/-- The operations use only their inputs and the variables they read. -/
noncomputable def interp (cfg : Cfg α) (logPost : (C → ι → α) → C → α) (grad : (C → ι → α) → C → ι → α) (feed : Feed)
    (z : C → ι → α) (u : C → α) (at_ : ι → V) : Interp (graph (V := V) (flags cfg feed)) (Val α C ι) where
  eval := eval cfg logPost grad feed z u at_
  local_ := by
    intro n o o' s s' h h'
    have hq : ∀ (hh : ∀ v, s (.q v) = s' (.q v)), (lists at_ fun v => s (.q v)) = lists at_ fun v => s' (.q v) := by
      intro hh; simp only [hh]
    change ∀ m ∈ deps _ n, _ at h
    change ∀ m ∈ reads _ n, _ at h'
    cases n <;> simp only [deps, reads, flags, Set.mem_insert_iff, Set.mem_singleton_iff, Set.mem_empty_iff_false,
      Set.mem_ofPred_eq, forall_eq_or_imp, forall_eq, false_imp_iff, implies_true] at h h' <;> simp only [eval]
    all_goals simp_all

section Refine

variable (cfg : Cfg α) (logPost : (C → ι → α) → C → α) (grad : (C → ι → α) → C → ι → α) (feed : Feed) (z : C → ι → α) (u : C → α)
  (at_ : ι → V) (st : Store (Op V) (Var V) (Val α C ι)) (l : List (Op V))

/-- The output of every operation, from the final outputs and the variables before the run. -/
theorem out_eq (hl : (graph (flags cfg feed)).Order l)
    (hs : cfg.adaptsStep = true → feed.adaptStep = true ∨ ∀ p q, l = p ++ .newStepSize :: q → .updateStepSize ∉ p) (n : Op V) :
    ((interp cfg logPost grad feed z u at_).run st l).out n =
      eval cfg logPost grad feed z u at_ n ((interp cfg logPost grad feed z u at_).run st l).out st.var := by
  obtain ⟨p, q, e⟩ := List.append_of_mem (hl.all n)
  have := out_final (interp cfg logPost grad feed z u at_) st p n q (e ▸ hl)
  rw [← e] at this
  rw [this]
  refine (interp cfg logPost grad feed z u at_).local_ n _ _ _ _ (fun _ _ => rfl) fun x hx => ?_
  by_cases h : cfg.adaptsStep = true → feed.adaptStep = true ∨ x ≠ .stepSize
  · exact C121_reads_partial _ _ st l p q n hl e x hx h
  · simp only [Classical.not_imp, not_or, not_not] at h
    obtain ⟨h1, h2, rfl⟩ := h
    have hp := (hs h1).resolve_left h2
    have hn : n = .newStepSize := by
      change _ ∈ reads _ n at hx
      cases n <;> simp [reads] at hx ⊢
    subst hn
    refine var_unwritten _ st p _ fun w hw hwx => ?_
    have := writes_unique _ w .updateStepSize .stepSize hwx (by simp [writes, flags, h1])
    exact hp p q e (this ▸ hw)

/-- C121.  Every order in which the step size is read before it is assigned computes the iteration: the variables and the statistics
after the run are those of `Hmc.iteration`, if the search for a step size ends. -/
theorem C121_refines (hc : cfg.adaptsMass = true → cfg.adaptsStep = true) (hl : (graph (flags cfg feed)).Order l)
    (hs : cfg.adaptsStep = true → feed.adaptStep = true ∨ ∀ p q, l = p ++ .newStepSize :: q → .updateStepSize ∉ p)
    (s' : State α C ι) (info : Info α C ι)
    (h : iteration cfg logPost grad feed z u (decode at_ st.var) = some (s', info)) :
    decode at_ ((interp cfg logPost grad feed z u at_).run st l).var = s' ∧
    decodeInfo cfg at_ ((interp cfg logPost grad feed z u at_).run st l).out ((interp cfg logPost grad feed z u at_).run st l).var =
      info := by
  have hO := out_eq cfg logPost grad feed z u at_ st l hl hs
  have hW : ∀ w x, writes (flags cfg feed) w = some x →
      ((interp cfg logPost grad feed z u at_).run st l).var x = ((interp cfg logPost grad feed z u at_).run st l).out w :=
    fun w x hx => var_written _ st (writes_unique _) l hl.nodup x w (hl.all w) hx
  have hU : ∀ x, (∀ w, writes (flags cfg feed) w ≠ some x) →
      ((interp cfg logPost grad feed z u at_).run st l).var x = st.var x :=
    fun x hx => var_unwritten _ st l x fun w _ => hx w
  generalize ((interp cfg logPost grad feed z u at_).run st l) = r at hO hW hU ⊢
  obtain ⟨o, var⟩ := r
  simp only at hO hW hU ⊢
  set s := decode at_ st.var with hsdef
  have hq : (lists at_ fun v => st.var (.q v)) = s.q := rfl
  -- the variance estimator and the mass
  have hT : (o .newT).count = s.t + 1 := by rw [hO]; simp [eval, hsdef, decode]
  have hEw : cfg.adaptsMass = true → feed.adaptMass = true →
      (o .ewmvT).num = (s.ewmv.update cfg.massDecay s.q).t ∧
      (dataLists at_ fun v => o (.updateMean v)) = (s.ewmv.update cfg.massDecay s.q).mean ∧
      (dataLists at_ fun v => o (.updateVar v)) = (s.ewmv.update cfg.massDecay s.q).var := by
    intro h1 h2
    have e1 : (o .ewmvT).num = s.ewmv.t + Flt.ofReal 1 := by rw [hO]; simp [eval, h1, h2, hsdef, decode]
    have e2 : (o .weight).num = (Flt.ofReal 1 - cfg.massDecay) / (Flt.ofReal 1 - Flt.pow cfg.massDecay (s.ewmv.t + Flt.ofReal 1)) := by
      rw [hO]; simp [eval, e1]
    have e3 : ∀ v, (o (.incr v)).full = fun c i => (o .weight).num * ((st.var (.q v)).full c i - (st.var (.mean v)).data i) := by
      intro v; rw [hO (.incr v)]; simp [eval, h1, h2]
    have e4 : ∀ v, (o (.updateMean v)).data = fun i => (st.var (.mean v)).data i + chainMean fun c => (o (.incr v)).full c i := by
      intro v; rw [hO (.updateMean v)]; simp [eval, h1, h2]
    have e5 : ∀ v, (o (.updateVar v)).data = fun i => (Flt.ofReal 1 - (o .weight).num) * (st.var (.var v)).data i +
        chainMean fun c => (o (.incr v)).full c i * ((st.var (.q v)).full c i - (o (.updateMean v)).data i) := by
      intro v; rw [hO (.updateVar v)]; simp only [eval]; rw [hO (.newVar v)]; simp [eval, h1, h2]
    refine ⟨e1, ?_, ?_⟩
    · funext i
      simp only [dataLists, e4, e3, e2, Ewmv.update, hsdef, decode, lists]
    · funext i
      simp only [dataLists, e5, e4, e3, e2, Ewmv.update, hsdef, decode, lists]
  have hM : (o .mass).data = (adaptMass cfg feed (s.t + 1) s.q s.ewmv).2 := by
    have hN : cfg.adaptsMass = true → (dataLists at_ fun v => o (.newMass v)) =
        precision (if feed.adaptMass then s.ewmv.update cfg.massDecay s.q else s.ewmv).var := by
      intro h1
      by_cases h2 : feed.adaptMass = true
      · rw [if_pos h2, ← (hEw h1 h2).2.2]
        funext i
        simp only [dataLists, precision]
        rw [hO]; simp [eval, h2, precision]
      · rw [if_neg h2]
        funext i
        simp only [dataLists, precision]
        rw [hO]; simp [eval, h1, h2, precision, hsdef, decode, dataLists]
    rw [hO]
    by_cases h1 : cfg.adaptsMass = true
    · simp only [eval, adaptMass, h1, if_true, hT, hN h1]
    · simp [eval, adaptMass, h1]
  -- the trajectory
  have hP : (o .momentum).momentum = randomMomentum z (adaptMass cfg feed (s.t + 1) s.q s.ewmv).2 := by
    rw [hO]; simp only [eval, hM]
  simp only [iteration, Option.map_eq_some_iff] at h
  obtain ⟨eps, heps, h⟩ := h
  have hE : (o .newStepSize).num = eps := by
    rw [hO]
    simp only [eval, hT, hM, hP, hq]
    by_cases h1 : cfg.adaptsStep = true
    · rw [if_pos h1]
      change (usedStepSize cfg logPost grad (s.t + 1) _ s.q _ s.stepSize).getD _ = _
      rw [heps]; rfl
    · rw [if_neg h1]
      simp only [usedStepSize, h1, Bool.false_eq_true, if_false, Option.some.injEq] at heps
      exact heps
  set em := adaptMass cfg feed (s.t + 1) s.q s.ewmv with hem
  set pm := randomMomentum z em.2
  set x := leapfrog em.2 grad cfg.nLeapfrogs eps (s.q, pm) with hx
  have hL : (o .leapfrog).full = x.1 ∧ (o .leapfrog).momentum = x.2 := by
    rw [hO]; simp only [eval, hM, hP, hE, hq]; exact ⟨rfl, rfl⟩
  have hOL : (o .oldLogProb).chain = logPost s.q := by rw [hO]; simp only [eval, hq]
  have hNL : (o .newLogProb).chain = logPost x.1 := by rw [hO]; simp only [eval, hL.1]
  set tr := transition cfg.nLeapfrogs logPost grad em.2 eps s.q pm u with htr
  have hOH : (o .oldHamiltonian).chain = fun c => (tr.mh c).oldH := by
    rw [hO]; simp only [eval, hOL, hP, hM]; rfl
  have hNH : (o .newHamiltonian).chain = fun c => (tr.mh c).newH := by
    rw [hO]; simp only [eval, hNL, hL.2, hM]; rfl
  have hR : (o .rate).chain = fun c => (tr.mh c).rate := by
    rw [hO]; simp only [eval, hOH, hNH, hNL]; rfl
  have hA : (o .ifAccept).flag = fun c => decide (Flt.lt (u c) (tr.mh c).rate) := by
    rw [hO]; simp only [eval, hR]
  have hNQ : (lists at_ fun v => o (.newQ v)) = tr.newQ := by
    funext c i
    simp only [lists]
    rw [hO]
    simp only [eval, hA, hL.1, decide_eq_true_eq]
    rfl
  have hLP : (o .logProb).chain = tr.logProb := by
    rw [hO]
    simp only [eval, hA, hNL, hOL, decide_eq_true_eq]
    rfl
  -- the tuner
  have hTu : cfg.adaptsStep = true →
      (o .updateStepSize).num =
        (s.tuner.tune cfg.tuner feed.adaptStep (chainMean fun c => (tr.mh c).rate) (ifInitialize cfg (s.t + 1))).1 ∧
      (feed.adaptStep = true → (⟨(o .step).num, (o .logEpsBar).num, (o .hBar).num⟩ : Tuner α) =
        (s.tuner.tune cfg.tuner feed.adaptStep (chainMean fun c => (tr.mh c).rate) (ifInitialize cfg (s.t + 1))).2) := by
    intro h1
    by_cases h2 : feed.adaptStep = true
    · have e1 : (o .step).num = (Flt.ofReal 1 - fresh cfg (s.t + 1)) * s.tuner.step + Flt.ofReal 1 := by
        rw [hO]; simp only [eval, h1, h2, Bool.and_self, if_true, hT]; rfl
      have e2 : (o .hBar).num = (Flt.ofReal 1 - fresh cfg (s.t + 1)) * (Flt.ofReal 1 - Flt.ofReal 1 / ((o .step).num + cfg.tuner.t0)) *
          s.tuner.hBar + Flt.ofReal 1 / ((o .step).num + cfg.tuner.t0) * (cfg.tuner.delta - chainMean fun c => (tr.mh c).rate) := by
        rw [hO .hBar]; simp only [eval, h1, h2, Bool.and_self, if_true, hT, hR]; rfl
      have e3 : (o .logEps).num = cfg.tuner.mu - Flt.sqrt (o .step).num / cfg.tuner.gamma * (o .hBar).num := by
        rw [hO .logEps]; simp only [eval]
      have e4 : (o .logEpsBar).num = Flt.pow (o .step).num (-cfg.tuner.kappa) * (o .logEps).num +
          (Flt.ofReal 1 - fresh cfg (s.t + 1)) * (Flt.ofReal 1 - Flt.pow (o .step).num (-cfg.tuner.kappa)) * s.tuner.logEpsBar := by
        rw [hO .logEpsBar]; simp only [eval, h1, h2, Bool.and_self, if_true, hT]; rfl
      have e5 : (o .updateStepSize).num = Flt.exp (o .logEps).num := by
        rw [hO .updateStepSize]; simp only [eval]; rw [hO .tuned]; simp only [eval, h2, if_true]
      refine ⟨?_, fun _ => ?_⟩
      · rw [e5, e3, e2, e1]; simp only [Tuner.tune, h2, if_true]; rfl
      · rw [e4, e3, e2, e1]; simp only [Tuner.tune, h2, if_true]; rfl
    · refine ⟨?_, fun h => absurd h h2⟩
      rw [hO .updateStepSize]; simp only [eval]; rw [hO .tuned]; simp only [eval, h2, h1, Bool.false_eq_true, if_false, if_true, Tuner.tune]
      rfl
  -- the variables
  obtain ⟨h3, h4⟩ := Prod.mk.injEq .. ▸ h
  have hS : (var .stepSize).num = (if cfg.adaptsStep = true then
      s.tuner.tune cfg.tuner feed.adaptStep (chainMean fun c => (tr.mh c).rate) (ifInitialize cfg (s.t + 1))
      else (s.stepSize, s.tuner)).1 := by
    by_cases h1 : cfg.adaptsStep = true
    · rw [hW .updateStepSize .stepSize (by simp [writes, flags, h1]), if_pos h1, (hTu h1).1]
    · rw [hU .stepSize (by intro w; cases w <;> simp [writes, flags, h1]), if_neg h1]; rfl
  have hQ : (lists at_ fun v => var (.q v)) = tr.newQ := by
    rw [← hNQ]
    congr 1
    funext v
    rw [hW (.updateQ v) (.q v) (by simp [writes]), hO]
    simp only [eval]
  have hTv : (var .t).count = if cfg.adaptsStep || cfg.adaptsMass then s.t + 1 else s.t := by
    by_cases h1 : cfg.adaptsStep = true
    · rw [hW .newT .t (by simp [writes, flags, h1]), hT]; simp [h1]
    · have h5 : cfg.adaptsMass = false := by
        cases hm : cfg.adaptsMass
        · rfl
        · exact absurd (hc hm) h1
      rw [hU .t (by intro w; cases w <;> simp [writes, flags, h1])]; simp [h1, h5]; rfl
  have hTuner : (⟨(var .tunerStep).num, (var .logEpsBar).num, (var .hBar).num⟩ : Tuner α) = (if cfg.adaptsStep = true then
      s.tuner.tune cfg.tuner feed.adaptStep (chainMean fun c => (tr.mh c).rate) (ifInitialize cfg (s.t + 1))
      else (s.stepSize, s.tuner)).2 := by
    by_cases h1 : cfg.adaptsStep = true
    · by_cases h2 : feed.adaptStep = true
      · rw [hW .step .tunerStep (by simp [writes, flags, h1, h2]), hW .hBar .hBar (by simp [writes, flags, h1, h2]),
          hW .logEpsBar .logEpsBar (by simp [writes, flags, h1, h2]), (hTu h1).2 h2, if_pos h1]
      · rw [hU .tunerStep (by intro w; cases w <;> simp [writes, flags, h2]), hU .hBar (by intro w; cases w <;> simp [writes, flags, h2]),
          hU .logEpsBar (by intro w; cases w <;> simp [writes, flags, h2]), if_pos h1]
        simp only [Tuner.tune, h2, Bool.false_eq_true, if_false]
        rfl
    · rw [hU .tunerStep (by intro w; cases w <;> simp [writes, flags, h1]), hU .hBar (by intro w; cases w <;> simp [writes, flags, h1]),
        hU .logEpsBar (by intro w; cases w <;> simp [writes, flags, h1]), if_neg h1]
      rfl
  have hEwmv : (⟨(var .ewmvT).num, dataLists at_ fun v => var (.mean v), dataLists at_ fun v => var (.var v)⟩ : Ewmv α ι) = em.1 := by
    by_cases h1 : cfg.adaptsMass = true ∧ feed.adaptMass = true
    · obtain ⟨h1, h2⟩ := h1
      have e1 : (fun v => var (.mean v)) = fun v => o (.updateMean v) :=
        funext fun v => hW (.updateMean v) (.mean v) (by simp [writes, flags, h1, h2])
      have e2 : (fun v => var (.var v)) = fun v => o (.updateVar v) :=
        funext fun v => hW (.updateVar v) (.var v) (by simp [writes, flags, h1, h2])
      rw [hW .ewmvT .ewmvT (by simp [writes, flags, h1, h2]), e1, e2, (hEw h1 h2).1, (hEw h1 h2).2.1, (hEw h1 h2).2.2]
      simp only [hem, adaptMass, h1, h2, if_true]
    · have e0 : ∀ x : Var V, (x = .ewmvT ∨ (∃ v, x = .mean v) ∨ ∃ v, x = .var v) → var x = st.var x := by
        intro x hx
        refine hU x fun w => ?_
        have h1' : (cfg.adaptsMass && feed.adaptMass) = false := by
          rw [Bool.eq_false_iff]; simpa only [ne_eq, Bool.and_eq_true] using h1
        have none_or : ∀ (b : Bool) (y : Var V), y ≠ x → (if b = true then some y else none) ≠ some x := by
          intro b y hy; cases b <;> simp [hy]
        cases w <;> simp only [writes, flags, h1', Bool.false_eq_true, if_false, ne_eq, reduceCtorEq, not_false_eq_true] <;>
          first
          | exact none_or _ _ (by rcases hx with rfl | ⟨v, rfl⟩ | ⟨v, rfl⟩ <;> simp)
          | (rcases hx with rfl | ⟨v, rfl⟩ | ⟨v, rfl⟩ <;> simp)
      have e1 : (fun v => var (.mean v)) = fun v => st.var (.mean v) := funext fun v => e0 _ (.inr (.inl ⟨v, rfl⟩))
      have e2 : (fun v => var (.var v)) = fun v => st.var (.var v) := funext fun v => e0 _ (.inr (.inr ⟨v, rfl⟩))
      rw [e0 _ (.inl rfl), e1, e2]
      by_cases hm : cfg.adaptsMass = true
      · have hf : feed.adaptMass = false := by
          cases hf : feed.adaptMass
          · rfl
          · exact absurd ⟨hm, hf⟩ h1
        simp only [hem, adaptMass, hm, hf, if_true, Bool.false_eq_true, if_false]
        rfl
      · simp only [hem, adaptMass, hm, Bool.false_eq_true, if_false]
        rfl
  refine ⟨?_, ?_⟩
  · rw [← h3]
    simp only [decode, hQ, hTv, hS, hTuner, hEwmv]
  · rw [← h4]
    have hUS : (if cfg.adaptsStep = true then (o .updateStepSize).num else (var .stepSize).num) = (var .stepSize).num := by
      by_cases h1 : cfg.adaptsStep = true
      · rw [if_pos h1, hW .updateStepSize .stepSize (by simp [writes, flags, h1])]
      · rw [if_neg h1]
    simp only [decodeInfo, hUS]
    simp only [hNQ, hR, hS, hP, hOH, hNH, hOL, hLP]
    rfl

/-- The hypotheses are met: without adaptation the iteration is defined and every order computes it. -/
example (h1 : cfg.adaptsStep = false) (h2 : cfg.adaptsMass = false) (hl : (graph (flags cfg feed)).Order l) :
    ∃ s' info, iteration cfg logPost grad feed z u (decode at_ st.var) = some (s', info) ∧
      decode at_ ((interp cfg logPost grad feed z u at_).run st l).var = s' :=
  ⟨_, _, by simp only [iteration, usedStepSize, h1]; rfl,
    (C121_refines cfg logPost grad feed z u at_ st l (by simp [h2]) hl (by simp [h1]) _ _
      (by simp only [iteration, usedStepSize, h1]; rfl)).1⟩

end Refine

/-- C121.  A loop of runs, each in some order of its own: if the step size is adapted or was never to be adapted, the variables after
`k` runs are those of `Hmc.runs`, if it ends.  `st j` is the store in which run `j` starts; only its variables are kept from the run
before. -/
theorem C121_runs (cfg : Cfg α) (logPost : (C → ι → α) → C → α) (grad : (C → ι → α) → C → ι → α) (feed : Feed) (at_ : ι → V)
    (hc : cfg.adaptsMass = true → cfg.adaptsStep = true) (hs : cfg.adaptsStep = true → feed.adaptStep = true)
    (st : ℕ → Store (Op V) (Var V) (Val α C ι)) (k : ℕ) (w : Fin k → (C → ι → α) × (C → α)) (l : Fin k → List (Op V))
    (hl : ∀ j, (graph (flags cfg feed)).Order (l j))
    (hst : ∀ j : Fin k, (st (j + 1)).var = ((interp cfg logPost grad feed (w j).1 (w j).2 at_).run (st j) (l j)).var)
    (s' : State α C ι) (h : runs cfg logPost grad feed (decode at_ (st 0).var) k w = some s') :
    decode at_ (st k).var = s' := by
  induction k generalizing s' with
  | zero => simpa [runs] using h
  | succ k ih =>
    simp only [runs] at h
    cases hr : runs cfg logPost grad feed (decode at_ (st 0).var) k (fun i => w i.castSucc) with
    | none => rw [hr] at h; simp at h
    | some s =>
      rw [hr] at h
      have e := ih (fun i => w i.castSucc) (fun i => l i.castSucc) (fun j => hl _) (fun j => hst j.castSucc) s hr
      simp only at h
      cases ho : sample cfg logPost grad feed (w (Fin.last k)).1 (w (Fin.last k)).2 s with
      | numericError => rw [ho] at h; simp at h
      | diverges => rw [ho] at h; simp at h
      | ok s2 info =>
        rw [ho] at h
        obtain rfl : s2 = s' := by simpa using h
        have h2 := C119_same ⟨false, false, false, false, false, false, false, false⟩ cfg logPost grad feed _ _ s s2 info ho
        simp only [sampleWith] at h2
        cases hi : iteration cfg logPost grad feed (w (Fin.last k)).1 (w (Fin.last k)).2 s with
        | none => rw [hi] at h2; simp at h2
        | some r =>
          obtain ⟨s3, i3⟩ := r
          rw [hi] at h2
          have h3 : s3 = s2 := by
            simp only [Fetches.checked, Bool.or_self, Bool.false_eq_true, false_and, if_false, Outcome.ok.injEq] at h2
            exact h2.1
          have := (C121_refines cfg logPost grad feed _ _ at_ (st k) (l (Fin.last k)) hc (hl _) (fun h1 => .inl (hs h1)) s3 i3
            (by rw [e]; exact hi)).1
          rw [h3] at this
          rw [← this]
          exact congrArg (decode at_) (hst (Fin.last k))

end ZhuSuan.HmcGraph
