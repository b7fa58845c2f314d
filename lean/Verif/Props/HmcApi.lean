import Verif.Model.HmcApi
import Verif.Props.Dict
import Verif.Props.HmcAdapt

/-!
# C57  HMC configuration and adaptation windows
-/

set_option autoImplicit false

namespace ZhuSuan.Hmc

/-- C57.  The constructor fails exactly when `adapt_mass` is given without `adapt_step_size`. -/
theorem C57_init {β : Type} (adaptStep adaptMass : Option β) (massCollect : ℕ) :
    (hmcInit adaptStep adaptMass massCollect = .error .valueError ↔ adaptMass.isSome ∧ adaptStep = none) ∧
    (∀ r, hmcInit adaptStep adaptMass massCollect = .ok r →
      r.adaptStep = adaptStep ∧ r.adaptMass = adaptMass ∧
      r.massCollect = if adaptMass.isSome then massCollect else 0) := by
  cases adaptStep <;> cases adaptMass <;> simp [hmcInit] <;> rintro r rfl <;> simp

variable {K T : Type} [DecidableEq K]

theorem latentValues_ok (l : List (K × Latent T)) (vs : List T) :
    latentValues l = .ok vs ↔ l.map Prod.snd = vs.map .var := by
  induction l generalizing vs with
  | nil => cases vs <;> simp [latentValues]
  | cons a l ih =>
    obtain ⟨k, v⟩ := a
    cases v with
    | other => cases vs <;> simp [latentValues]
    | var v =>
      simp only [latentValues]
      cases h : latentValues l with
      | error e =>
        cases vs with
        | nil => simp
        | cons w vs =>
          have := ih vs
          rw [h] at this
          simp only [List.map_cons, List.cons.injEq]
          constructor
          · intro h'; exact absurd h' (by simp)
          · rintro ⟨_, h'⟩; exact absurd (this.2 h') (by simp)
      | ok ws =>
        cases vs with
        | nil => simp
        | cons w vs =>
          have := ih vs
          rw [h] at this
          simp only [Except.ok.injEq, List.map_cons, List.cons.injEq, Latent.var.injEq] at this ⊢
          rw [this]

theorem latentValues_error (l : List (K × Latent T)) (e : Err) :
    latentValues l = .error e ↔ e = .typeError ∧ ∃ k, (k, Latent.other) ∈ l := by
  induction l with
  | nil => simp [latentValues]
  | cons a l ih =>
    obtain ⟨k, v⟩ := a
    cases v with
    | other =>
      simp only [latentValues, Except.error.injEq]
      exact ⟨fun h => ⟨h.symm, k, by simp⟩, fun h => h.1.symm⟩
    | var v =>
      simp only [latentValues]
      cases h : latentValues l with
      | error e' =>
        rw [h] at ih
        simp only [List.mem_cons, Prod.mk.injEq, reduceCtorEq, and_false, false_or]
        exact ih
      | ok ws =>
        rw [h] at ih
        simp only [List.mem_cons, Prod.mk.injEq, reduceCtorEq, and_false, false_or]
        exact ⟨fun h' => absurd h' (by simp), fun h' => absurd (ih.2 h') (by simp)⟩

/-- C57.  `sample` refuses a latent value that is not a `Variable`. -/
theorem C57_not_variable (chainShape : Dict K T → Option (List (Option ℕ))) (observed : Dict K T)
    (latent : Dict K (Latent T)) (k : K) (h : (k, Latent.other) ∈ latent) :
    checkSample chainShape observed latent = .error .typeError := by
  have h1 : latentValues latent = .error .typeError := (latentValues_error latent _).2 ⟨rfl, k, h⟩
  cases latent with
  | nil => exact absurd h (by simp)
  | cons a l => simp [checkSample, h1]

/-- C57.  `sample` accepts exactly the non-empty dictionaries of variables for which the log joint has a
static rank, and takes this rank as the number of chain axes. -/
theorem C57_accepts (chainShape : Dict K T → Option (List (Option ℕ))) (observed : Dict K T)
    (latent : Dict K (Latent T)) (r : Checked K T) :
    checkSample chainShape observed latent = .ok r ↔
      latent ≠ [] ∧ latent.map Prod.fst = r.names ∧ latent.map Prod.snd = r.values.map .var ∧
      ∃ sh, chainShape (jointObs r.names r.values observed) = some sh ∧ r.nChainDims = sh.length := by
  constructor
  · intro h
    simp only [checkSample] at h
    split at h
    · exact absurd h (by simp)
    rename_i hne
    split at h
    · exact absurd h (by simp)
    rename_i vs hvs
    split at h
    · exact absurd h (by simp)
    rename_i sh hsh
    rw [Except.ok.injEq] at h
    subst h
    exact ⟨by simpa using hne, rfl, (latentValues_ok _ _).1 hvs, sh, hsh, rfl⟩
  · rintro ⟨hne, h1, h2, sh, hsh, hn⟩
    obtain ⟨names, values, n⟩ := r
    simp only at h1 h2 hsh hn
    subst h1 hn
    have he : latent.isEmpty = false := by simpa using hne
    have hk : latent.keys = latent.map Prod.fst := rfl
    simp only [checkSample, he, (latentValues_ok _ _).2 h2, hk, hsh]
    rfl

/-- C57.  The log joint is called with the observed value of every observed name, and with the candidate
value of every other latent name. -/
theorem C57_joint (names : List K) (hn : names.Nodup) (values : List T) (observed : Dict K T)
    (ho : observed.WF) (k : K) :
    (jointObs names values observed).get? k = (observed.get? k).or (Dict.get? (names.zip values) k) := by
  have hz : Dict.WF (names.zip values) := by
    have : Dict.keys (names.zip values) = names.take values.length := by
      simp only [Dict.keys]
      clear hn
      induction names generalizing values with
      | nil => simp
      | cons a l ih => cases values <;> simp [ih]
    rw [Dict.WF, this]
    exact hn.sublist (List.take_sublist _ _)
  have hu : (Dict.update [] (names.zip values)).WF := Dict.update_wf (by simp [Dict.WF, Dict.keys]) _
  rw [jointObs, Dict.C36_last_wins _ (by
    intro d hd
    simp only [List.mem_cons, List.not_mem_nil, or_false] at hd
    rcases hd with rfl | rfl
    · exact hu
    · exact ho)]
  have : (Dict.update [] (names.zip values)).get? k = Dict.get? (names.zip values) k := by
    rw [Dict.get?_update hz]
    simp [Dict.get?]
  simp only [List.reverse_cons, List.reverse_nil, List.nil_append, List.cons_append, List.findSome?_cons,
    List.findSome?_nil, this]
  cases observed.get? k <;> cases Dict.get? (names.zip values) k <;> rfl

/-- A concrete case. -/
example : jointObs ["w", "b"] [1, 2] [("y", 3), ("b", 4)] = [("w", 1), ("b", 4), ("y", 3)] := by decide

variable {C ι : Type} [Fintype C] [Fintype ι]

/-- C57.  With step size adaptation, the iteration counter counts the iterations. -/
theorem C57_counter (cfg : Cfg ℝ) (h1 : cfg.adaptsStep = true)
    (logPost : (C → ι → ℝ) → C → ℝ) (grad : (C → ι → ℝ) → C → ι → ℝ) (feed : ℕ → Feed)
    (z : ℕ → C → ι → ℝ) (u : ℕ → C → ℝ) (s : ℕ → State ℝ C ι) (info : ℕ → Info ℝ C ι)
    (hs : ∀ k, sample cfg logPost grad (feed k) (z k) (u k) (s k) = .ok (s (k + 1)) (info k)) (n : ℕ) :
    (s n).t = (s 0).t + n := by
  induction n with
  | zero => rfl
  | succ n ih =>
    rw [(sample_tuner cfg logPost grad _ _ _ _ _ _ (hs n)).1, ih]
    simp [h1]
    ring

/-- C57, finding.  Without adaptation the counter keeps its value (nothing reads it then). -/
theorem C57_counter_stuck (cfg : Cfg ℝ) (h1 : cfg.adaptsStep = false) (h2 : cfg.adaptsMass = false)
    (logPost : (C → ι → ℝ) → C → ℝ) (grad : (C → ι → ℝ) → C → ι → ℝ) (feed : Feed) (z : C → ι → ℝ)
    (u : C → ℝ) (s s' : State ℝ C ι) (info : Info ℝ C ι)
    (hs : sample cfg logPost grad feed z u s = .ok s' info) : s'.t = s.t := by
  rw [(sample_tuner cfg logPost grad _ _ _ _ _ _ hs).1]
  simp [h1, h2]

/-- C57.  Which step size an iteration uses.  `n` counts this iteration.  At the first iteration and at
`mass_collect_iters` it is the result of the search, started from the current step size; at every other one
it is the current step size, and the iteration always ends. -/
theorem C57_search_window (cfg : Cfg ℝ) (h1 : cfg.adaptsStep = true)
    (logPost : (C → ι → ℝ) → C → ℝ) (grad : (C → ι → ℝ) → C → ι → ℝ) (feed : Feed) (z : C → ι → ℝ)
    (u : C → ℝ) (s : State ℝ C ι) (n : ℕ) (hn : n = s.t + 1) :
    let mass := (adaptMass cfg feed n s.q s.ewmv).2
    let p := randomMomentum z mass
    let next := fun eps => (transition cfg.nLeapfrogs logPost grad mass eps s.q p u).newQ
    (n ≠ 1 → n ≠ cfg.massCollect → ∃ s' info,
      sample cfg logPost grad feed z u s = .ok s' info ∧ s'.q = next s.stepSize) ∧
    (n = 1 ∨ n = cfg.massCollect →
      (∀ eps, initStepSize (trialRate logPost grad mass s.q p) cfg.target s.stepSize = some eps →
        ∃ s' info, sample cfg logPost grad feed z u s = .ok s' info ∧ s'.q = next eps) ∧
      (initStepSize (trialRate logPost grad mass s.q p) cfg.target s.stepSize = none →
        sample cfg logPost grad feed z u s = .diverges)) := by
  subst hn
  intro mass p next
  have key : ∀ eps, usedStepSize cfg logPost grad (s.t + 1) mass s.q p s.stepSize = some eps →
      ∃ s' info, sample cfg logPost grad feed z u s = .ok s' info ∧ s'.q = next eps := by
    intro eps he
    simp only [sample]
    simp only [mass, p] at he
    simp only [he]
    rw [if_pos (allFinite _)]
    exact ⟨_, _, rfl, rfl⟩
  refine ⟨fun n1 n2 => key _ ?_, fun hn => ⟨fun eps he => key _ ?_, fun he => ?_⟩⟩
  · have hi : ifInitialize cfg (s.t + 1) = false := by simp [ifInitialize, n2]; omega
    simp [usedStepSize, h1, hi]
  · have hi : ifInitialize cfg (s.t + 1) = true := by simpa [ifInitialize] using hn
    simpa [usedStepSize, h1, hi] using he
  · have hi : ifInitialize cfg (s.t + 1) = true := by simpa [ifInitialize] using hn
    have hu : usedStepSize cfg logPost grad (s.t + 1) mass s.q p s.stepSize = none := by
      simpa [usedStepSize, h1, hi] using he
    simp only [sample]
    simp only [mass, p] at hu
    simp only [hu]

/-- A concrete case: a constant log density has acceptance rate one at every step size, so the first
iteration does not end. -/
example (cfg : Cfg ℝ) (h1 : cfg.adaptsStep = true) (ht : cfg.target ≤ 1)
    (feed : Feed) (z : Fin 1 → Fin 1 → ℝ) (u : Fin 1 → ℝ) (s : State ℝ (Fin 1) (Fin 1)) (hs : s.t = 0) :
    sample cfg (fun _ _ => 0) (fun _ _ _ => 0) feed z u s = .diverges := by
  refine ((C57_search_window cfg h1 _ _ feed z u s 1 (by rw [hs])).2 (.inl rfl)).2 ?_
  by_contra hne
  obtain ⟨m, hm⟩ := (C56_terminates_iff _ _ _ ht).1 (Option.isSome_iff_ne_none.2 hne)
  simp [trialRate, chainMean, getAcceptanceRate, hamiltonian, leapfrogIntegrator, acceptanceRate] at hm
  linarith

end ZhuSuan.Hmc
