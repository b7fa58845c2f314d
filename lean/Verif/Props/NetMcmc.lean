import Verif.Spec.NetMcmc
import Verif.Model.NetMcmc
import Verif.Props.Program
import Verif.Props.HmcRuns
import Verif.Props.HmcApi

/-!
# C78  HMC on a net samples the posterior of the model
-/

set_option autoImplicit false

open MeasureTheory Set ProbabilityTheory
open scoped ENNReal

namespace ZhuSuan.BN

variable {C X : Type}

theorem get?_map {V V' : Type} (f : V → V') (d : Dict Name V) (n : Name) :
    Dict.get? (d.map fun e => (e.1, f e.2)) n = (d.get? n).map f := by
  induction d with
  | nil => rfl
  | cons a d ih =>
    obtain ⟨a, b⟩ := a
    simp only [List.map_cons, Dict.get?]
    split <;> simp_all

theorem zip_ofFn {A B : Type} {k : ℕ} (f : Fin k → A) (g : Fin k → B) :
    (List.ofFn f).zip (List.ofFn g) = List.ofFn fun i => (f i, g i) := by
  apply List.ext_getElem <;> simp

variable {k : ℕ} {κ : Fin k → Type}

theorem latentDict_eq (names : Fin k → Name) (mk : (i : Fin k) → (κ i → ℝ) → X) (q : C → (Σ i, κ i) → ℝ) (c : C) :
    latentDict names mk (q c) = ((List.ofFn names).zip (latentTensors mk q)).map fun e => (e.1, e.2 c) := by
  rw [latentTensors, zip_ofFn, latentDict, List.map_ofFn]
  rfl

/-- **C78.** Whatever the observations, the latent variables and their current values are: evaluating the log
posterior of a net succeeds, and its value in each chain is the logarithm of the joint density of the model,
with the nodes at their observed values, else at the values of the latent variables of that chain.  (A node
that is neither is sampled anew, `dr`, in every evaluation.) -/
theorem C78_log_posterior (dr : ℕ → C → X) (m : Option (LogJoint (C → EReal))) (hm : m = none ∨ m = some .unset)
    (prog : List (Decl X)) (hwf : WellFormed prog) (names : Fin k → Name) (hn : Function.Injective names)
    (mk : (i : Fin k) → (κ i → ℝ) → X) (observed : Dict Name (C → X)) (ho : observed.WF)
    (q : C → (Σ i, κ i) → ℝ) :
    ∃ l, getLogPosterior dr m prog (List.ofFn names) observed (latentTensors mk q) = .ok l ∧
      ∀ c, l c = (posteriorDens prog names mk (atChain observed c) (fun i => dr i c) (q c)).log := by
  set obs := Hmc.jointObs (List.ofFn names) (latentTensors mk q) observed with hobs
  obtain ⟨s, l, s', h1, h2, h3⟩ := C69_program chainEv dr (some (obs.map fun e => (e.1, some e.2))) m prog hm hwf
  refine ⟨l, ?_, fun c => ?_⟩
  · simp only [getLogPosterior, netLogJoint, observe, ← hobs, h1, h2]
  · rw [h3, posteriorDens]
    congr 2
    funext i
    unfold nodeVal placed
    cases prog[i]? with
    | none => rfl
    | some d =>
      have e : obsOf (some (obs.map fun e => (e.1, some e.2))) d.name =
          (observed.get? d.name).or (Dict.get? ((List.ofFn names).zip (latentTensors mk q)) d.name) := by
        rw [← Hmc.C57_joint (List.ofFn names) (List.nodup_ofFn.2 hn) _ _ ho, ← hobs]
        simp only [obsOf, Option.bind_some]
        rw [get?_map (fun v : C → X => some v)]
        cases Dict.get? obs d.name <;> rfl
      simp only [Option.bind_some, e, atChain, latentDict_eq names mk q c]
      rw [get?_map (fun v : C → X => v c), get?_map (fun v : C → X => v c)]
      cases Dict.get? observed d.name with
      | some v => rfl
      | none =>
        cases Dict.get? ((List.ofFn names).zip (latentTensors mk q)) d.name <;> rfl

theorem latentDict_get? (names : Fin k → Name) (hn : Function.Injective names)
    (mk : (i : Fin k) → (κ i → ℝ) → X) (q : (Σ i, κ i) → ℝ) (i : Fin k) :
    (latentDict names mk q).get? (names i) = some (mk i fun j => q ⟨i, j⟩) := by
  have hw : (latentDict names mk q).WF := by
    simp only [Dict.WF, Dict.keys, latentDict, List.map_ofFn]
    exact List.nodup_ofFn.2 hn
  rw [Dict.get?_eq_some_iff hw]
  simp only [latentDict, List.mem_ofFn]
  exact ⟨i, rfl⟩

/-- With every node observed or latent nothing is sampled anew. -/
theorem posteriorDens_congr (prog : List (Decl X)) (hwf : WellFormed prog) (names : Fin k → Name)
    (hn : Function.Injective names)
    (mk : (i : Fin k) → (κ i → ℝ) → X) (observed : Dict Name X) (hc : Complete prog names observed)
    (x0 x1 : ℕ → X) (q : (Σ i, κ i) → ℝ) :
    posteriorDens prog names mk observed x0 q = posteriorDens prog names mk observed x1 q := by
  have h : ∀ i < prog.length, placed observed (latentDict names mk q) x0 prog i =
      placed observed (latentDict names mk q) x1 prog i := by
    intro i hi
    have e : prog[i]? = some prog[i] := List.getElem?_eq_getElem hi
    simp only [placed, e]
    cases h1 : Dict.get? observed prog[i].name with
    | some v => rfl
    | none =>
      rcases hc prog[i] (List.getElem_mem hi) with h2 | ⟨j, h2⟩
      · simp [h1] at h2
      · simp only [← h2, latentDict_get? names hn mk q j]
  unfold posteriorDens jointDens
  refine Finset.prod_congr rfl fun i _ => ?_
  rw [h i i.2]
  congr 1
  refine List.map_congr_left fun p hp => h p ?_
  exact (hwf.2 i (prog.get i) (by simp) p hp).trans i.2

section
variable [MeasurableSpace X]

theorem measurable_posteriorDens (prog : List (Decl X))
    (hmeas : ∀ d ∈ prog, Measurable (fun p : (ℕ → X) × X => d.dens (d.parents.map p.1) p.2))
    (names : Fin k → Name) (mk : (i : Fin k) → (κ i → ℝ) → X) (hmk : ∀ i, Measurable (mk i))
    (observed : Dict Name X) (x0 : ℕ → X) :
    Measurable (posteriorDens prog names mk observed x0) := by
  have hp : ∀ i, Measurable fun q => placed observed (latentDict names mk q) x0 prog i := by
    intro i
    unfold placed
    cases prog[i]? with
    | none => exact measurable_const
    | some d =>
      show Measurable fun q => (match observed.get? d.name with
        | some v => v
        | none => (match (latentDict names mk q).get? d.name with
          | some v => v
          | none => x0 i) : X)
      cases observed.get? d.name with
      | some v => exact measurable_const
      | none =>
        have key : ∀ l : List (Fin k), Measurable fun q : (Σ i, κ i) → ℝ =>
            (match Dict.get? (l.map fun i => (names i, mk i fun j => q ⟨i, j⟩)) d.name with
              | some v => v
              | none => x0 i : X) := by
          intro l
          induction l with
          | nil => exact measurable_const
          | cons a l ih =>
            simp only [List.map_cons, Dict.get?]
            by_cases h : names a = d.name
            · simp only [h, if_true]
              exact (hmk a).comp (measurable_pi_lambda _ fun j => measurable_pi_apply _)
            · simp only [h, if_false]
              exact ih
        have h := key (List.finRange k)
        simpa only [latentDict, List.ofFn_eq_map] using h
  have hall : Measurable fun q => placed observed (latentDict names mk q) x0 prog := measurable_pi_lambda _ hp
  unfold posteriorDens jointDens
  exact Finset.measurable_prod _ fun i _ => (hmeas _ (List.get_mem _ _)).comp (hall.prodMk (hp i))

end

section
variable [MeasurableSpace X] [Fintype C] [∀ i, Fintype (κ i)]

omit [Fintype C] [∀ i, Fintype (κ i)] [MeasurableSpace X] in
theorem complete_atChain {prog : List (Decl X)} {names : Fin k → Name} {observed : Dict Name (C → X)}
    (hc : Complete prog names observed) (c : C) : Complete prog names (atChain observed c) := by
  intro d hd
  rw [atChain, get?_map (fun v : C → X => v c)]
  simpa using hc d hd

omit [Fintype C] in
/-- The log posterior of a net whose nodes are all observed or latent, when it is finite. -/
theorem logPosterior_split (m : Option (LogJoint (C → EReal))) (hm : m = none ∨ m = some .unset)
    (prog : List (Decl X)) (hwf : WellFormed prog)
    (hmeas : ∀ d ∈ prog, Measurable (fun p : (ℕ → X) × X => d.dens (d.parents.map p.1) p.2))
    (names : Fin k → Name) (hn : Function.Injective names)
    (mk : (i : Fin k) → (κ i → ℝ) → X) (hmk : ∀ i, Measurable (mk i)) (observed : Dict Name (C → X))
    (ho : observed.WF) (hc : Complete prog names observed) (x0 : ℕ → X)
    (logPost : (C → (Σ i, κ i) → ℝ) → C → ℝ)
    (hlp : ∀ q, ∃ dr l, getLogPosterior dr m prog (List.ofFn names) observed (latentTensors mk q) = .ok l ∧
      ∀ c, l c = (logPost q c : EReal)) :
    ∃ lp : C → ((Σ i, κ i) → ℝ) → ℝ, (∀ c, Measurable (lp c)) ∧ (logPost = fun q c => lp c (q c)) ∧
      ∀ c q, ENNReal.ofReal (Real.exp (lp c q)) = posteriorDens prog names mk (atChain observed c) x0 q := by
  have key : ∀ q c, (posteriorDens prog names mk (atChain observed c) x0 (q c)).log = (logPost q c : EReal) := by
    intro q c
    obtain ⟨dr, l, h1, h2⟩ := hlp q
    obtain ⟨l', h3, h4⟩ := C78_log_posterior dr m hm prog hwf names hn mk observed ho q
    rw [h1] at h3
    cases h3
    rw [← h2 c, h4 c, posteriorDens_congr prog hwf names hn mk _ (complete_atChain hc c) x0 (fun i => dr i c)]
  refine ⟨fun c q => (posteriorDens prog names mk (atChain observed c) x0 q).log.toReal, fun c => ?_, ?_, ?_⟩
  · exact (measurable_posteriorDens prog hmeas names mk hmk _ x0).ennreal_log.ereal_toReal
  · funext q c
    show logPost q c = (posteriorDens prog names mk (atChain observed c) x0 (q c)).log.toReal
    rw [key q c, EReal.toReal_coe]
  · intro c q
    have h := key (fun _ => q) c
    show ENNReal.ofReal (Real.exp (posteriorDens prog names mk (atChain observed c) x0 q).log.toReal) = _
    rw [h, EReal.toReal_coe]
    have h' := congrArg EReal.exp h
    rw [ENNReal.exp_log] at h'
    rw [h', EReal.exp_coe]

/-- Independent chains, each with its own factor. -/
theorem pi_smul {Q : Type} [MeasurableSpace Q] (a : C → ℝ≥0∞) (μ : C → Measure Q) [∀ c, SigmaFinite (μ c)]
    [∀ c, SigmaFinite (a c • μ c)] : Measure.pi (fun c => a c • μ c) = (∏ c, a c) • Measure.pi μ := by
  refine Measure.pi_eq fun s hs => ?_
  rw [Measure.smul_apply, Measure.pi_pi, smul_eq_mul, ← Finset.prod_mul_distrib]
  rfl

omit [MeasurableSpace X] in
/-- From the density to the posterior. -/
theorem posterior_invariant {N : Type} [MeasurableSpace N] (ν : Measure N) [SFinite ν]
    (prog : List (Decl X)) (names : Fin k → Name) (mk : (i : Fin k) → (κ i → ℝ) → X)
    (observed : Dict Name (C → X)) (x0 : ℕ → X) (lp : C → ((Σ i, κ i) → ℝ) → ℝ) (hl : ∀ c, Measurable (lp c))
    (hlp : ∀ c q, ENNReal.ofReal (Real.exp (lp c q)) = posteriorDens prog names mk (atChain observed c) x0 q)
    (hZ : ∀ c, ∫⁻ q, posteriorDens prog names mk (atChain observed c) x0 q ≠ ∞)
    (final : (C → (Σ i, κ i) → ℝ) × N → C → (Σ i, κ i) → ℝ)
    (h : ((Measure.pi fun c => volume.withDensity fun q => ENNReal.ofReal (Real.exp (lp c q))).prod ν).map final =
      Measure.pi fun c => volume.withDensity fun q => ENNReal.ofReal (Real.exp (lp c q))) :
    (∀ c, IsProbabilityMeasure (posterior prog names mk (atChain observed c) x0)) ∧
    ((Measure.pi fun c => posterior prog names mk (atChain observed c) x0).prod ν).map final =
      Measure.pi fun c => posterior prog names mk (atChain observed c) x0 := by
  have e : ∀ c, posterior prog names mk (atChain observed c) x0 =
      (∫⁻ q, posteriorDens prog names mk (atChain observed c) x0 q)⁻¹ •
        volume.withDensity fun q => ENNReal.ofReal (Real.exp (lp c q)) := by
    intro c
    simp only [posterior, hlp]
  have hZ0 : ∀ c, ∫⁻ q, posteriorDens prog names mk (atChain observed c) x0 q ≠ 0 := by
    intro c h0
    simp only [← hlp] at h0
    have mexp : Measurable fun q => ENNReal.ofReal (Real.exp (lp c q)) :=
      (Real.measurable_exp.comp (hl c)).ennreal_ofReal
    rw [lintegral_eq_zero_iff mexp] at h0
    have : (volume : Measure ((Σ i, κ i) → ℝ)) univ = 0 := by
      refine measure_mono_null (fun q _ => ?_) h0
      simp [Real.exp_pos]
    exact isOpen_univ.measure_ne_zero volume univ_nonempty this
  have hprob : ∀ c, IsProbabilityMeasure (posterior prog names mk (atChain observed c) x0) := by
    intro c
    refine ⟨?_⟩
    rw [posterior, Measure.smul_apply, withDensity_apply _ MeasurableSet.univ, Measure.restrict_univ, smul_eq_mul]
    exact ENNReal.inv_mul_cancel (hZ0 c) (hZ c)
  refine ⟨hprob, ?_⟩
  have hs : ∀ c, SigmaFinite ((∫⁻ q, posteriorDens prog names mk (atChain observed c) x0 q)⁻¹ •
      volume.withDensity fun q => ENNReal.ofReal (Real.exp (lp c q))) := fun c => by
    rw [← e]; have := hprob c; infer_instance
  have hs' : ∀ c, SigmaFinite ((volume : Measure ((Σ i, κ i) → ℝ)).withDensity fun q =>
      ENNReal.ofReal (Real.exp (lp c q))) := fun c => by
    show SigmaFinite (Hmc.target (lp c))
    infer_instance
  simp only [e]
  rw [pi_smul, Measure.prod_smul_left, Measure.map_smul, h]

/-- **C78.** HMC without adaptation on a net: any number `n` of iterations, run with the log joint of the net,
finish; and if the positions at the start are independent draws from the posteriors of the chains (each chain
with its own observed values), the positions at the end are so again.  Every node of the model is observed or a
latent variable, and the log posterior is finite. -/
theorem C78_posterior_invariant (m : Option (LogJoint (C → EReal))) (hm : m = none ∨ m = some .unset)
    (prog : List (Decl X)) (hwf : WellFormed prog)
    (hmeas : ∀ d ∈ prog, Measurable (fun p : (ℕ → X) × X => d.dens (d.parents.map p.1) p.2))
    (names : Fin k → Name) (hn : Function.Injective names)
    (mk : (i : Fin k) → (κ i → ℝ) → X) (hmk : ∀ i, Measurable (mk i)) (observed : Dict Name (C → X))
    (ho : observed.WF) (hc : Complete prog names observed) (x0 : ℕ → X)
    (logPost : (C → (Σ i, κ i) → ℝ) → C → ℝ)
    (hlp : ∀ q, ∃ dr l, getLogPosterior dr m prog (List.ofFn names) observed (latentTensors mk q) = .ok l ∧
      ∀ c, l c = (logPost q c : EReal))
    (hZ : ∀ c, ∫⁻ q, posteriorDens prog names mk (atChain observed c) x0 q ≠ ∞)
    (g : C → ((Σ i, κ i) → ℝ) → (Σ i, κ i) → ℝ) (hg : ∀ c, Measurable (g c))
    (cfg : Hmc.Cfg ℝ) (h1 : cfg.adaptsStep = false) (h2 : cfg.adaptsMass = false) (feed : Hmc.Feed)
    (s : Hmc.State ℝ C (Σ i, κ i)) (n : ℕ) :
    let start : Measure (C → (Σ i, κ i) → ℝ) := Measure.pi fun c => posterior prog names mk (atChain observed c) x0
    let noise : Measure ((C → (Σ i, κ i) → ℝ) × (C → ℝ)) :=
      (Measure.pi fun _ => Measure.pi fun _ => gaussianReal 0 1).prod (Measure.pi fun _ => volume.restrict (Ico 0 1))
    (∀ c, IsProbabilityMeasure (posterior prog names mk (atChain observed c) x0)) ∧
    ∃ final : (C → (Σ i, κ i) → ℝ) × (Fin n → (C → (Σ i, κ i) → ℝ) × (C → ℝ)) → C → (Σ i, κ i) → ℝ,
      Measurable final ∧
      (∀ q w, Hmc.runs cfg logPost (fun q c => g c (q c)) feed { s with q := q } n w =
        some { s with q := final (q, w) }) ∧
      (start.prod (Measure.pi fun _ => noise)).map final = start := by
  intro start noise
  obtain ⟨lp, ml, el, hd⟩ := logPosterior_split m hm prog hwf hmeas names hn mk hmk observed ho hc x0 logPost hlp
  obtain ⟨final, mf, hf, hinv⟩ := Hmc.C52_runs cfg h1 h2 feed lp ml g hg s n
  have hu : IsProbabilityMeasure (volume.restrict (Ico (0 : ℝ) 1)) := ⟨by simp⟩
  obtain ⟨p1, p2⟩ := posterior_invariant (Measure.pi fun _ : Fin n => noise) prog names mk observed x0 lp ml hd hZ
    final hinv
  subst el
  exact ⟨p1, final, mf, hf, p2⟩

/-- **C78.** The same after a burn-in with adaptation of the step size and possibly the mass. -/
theorem C78_after_burn_in (m : Option (LogJoint (C → EReal))) (hm : m = none ∨ m = some .unset)
    (prog : List (Decl X)) (hwf : WellFormed prog)
    (hmeas : ∀ d ∈ prog, Measurable (fun p : (ℕ → X) × X => d.dens (d.parents.map p.1) p.2))
    (names : Fin k → Name) (hn : Function.Injective names)
    (mk : (i : Fin k) → (κ i → ℝ) → X) (hmk : ∀ i, Measurable (mk i)) (observed : Dict Name (C → X))
    (ho : observed.WF) (hc : Complete prog names observed) (x0 : ℕ → X)
    (logPost : (C → (Σ i, κ i) → ℝ) → C → ℝ)
    (hlp : ∀ q, ∃ dr l, getLogPosterior dr m prog (List.ofFn names) observed (latentTensors mk q) = .ok l ∧
      ∀ c, l c = (logPost q c : EReal))
    (hZ : ∀ c, ∫⁻ q, posteriorDens prog names mk (atChain observed c) x0 q ≠ ∞)
    (g : C → ((Σ i, κ i) → ℝ) → (Σ i, κ i) → ℝ) (hg : ∀ c, Measurable (g c))
    (cfg : Hmc.Cfg ℝ) (feed : Hmc.Feed) (hf1 : feed.adaptStep = false) (hf2 : feed.adaptMass = false)
    (s : Hmc.State ℝ C (Σ i, κ i)) (ht : 1 ≤ s.t) (ht' : cfg.massCollect ≤ s.t)
    (hv : cfg.adaptsMass = true → ∀ i, 0 < s.ewmv.var i) (n : ℕ) :
    let start : Measure (C → (Σ i, κ i) → ℝ) := Measure.pi fun c => posterior prog names mk (atChain observed c) x0
    let noise : Measure ((C → (Σ i, κ i) → ℝ) × (C → ℝ)) :=
      (Measure.pi fun _ => Measure.pi fun _ => gaussianReal 0 1).prod (Measure.pi fun _ => volume.restrict (Ico 0 1))
    ∃ final : (C → (Σ i, κ i) → ℝ) × (Fin n → (C → (Σ i, κ i) → ℝ) × (C → ℝ)) → C → (Σ i, κ i) → ℝ,
      Measurable final ∧
      (∀ q w, (Hmc.runs cfg logPost (fun q c => g c (q c)) feed { s with q := q } n w).map Hmc.State.q =
        some (final (q, w))) ∧
      (start.prod (Measure.pi fun _ => noise)).map final = start := by
  intro start noise
  obtain ⟨lp, ml, el, hd⟩ := logPosterior_split m hm prog hwf hmeas names hn mk hmk observed ho hc x0 logPost hlp
  obtain ⟨final, mf, hf, hinv⟩ := Hmc.C52_runs_after_burn_in cfg feed hf1 hf2 lp ml g hg s ht ht' hv n
  have hu : IsProbabilityMeasure (volume.restrict (Ico (0 : ℝ) 1)) := ⟨by simp⟩
  obtain ⟨p1, p2⟩ := posterior_invariant (Measure.pi fun _ : Fin n => noise) prog names mk observed x0 lp ml hd hZ
    final hinv
  subst el
  refine ⟨final, mf, fun q w => ?_, p2⟩
  obtain ⟨s', h1, h2, _⟩ := hf q w
  rw [h1, ← h2]
  rfl

end

/-! ### A case: the mean of a normal distribution -/

/-- `z` is standard normal and `x` normal with mean `z`. -/
noncomputable def normalMean : List (Decl ℝ) :=
  [⟨"z", [], fun _ z => gaussianPDF 0 1 z⟩, ⟨"x", [0], fun ps x => gaussianPDF (ps.headD 0) 1 x⟩]

theorem normalMean_wf : WellFormed normalMean := by
  refine ⟨by decide, fun i d h p hp => ?_⟩
  match i with
  | 0 => simp [normalMean] at h; subst h; simp at hp
  | 1 => simp [normalMean] at h; subst h; simp at hp; omega
  | n + 2 => simp [normalMean] at h

theorem normalMean_meas : ∀ d ∈ normalMean,
    Measurable (fun p : (ℕ → ℝ) × ℝ => d.dens (d.parents.map p.1) p.2) := by
  intro d hd
  simp only [normalMean, List.mem_cons, List.not_mem_nil, or_false] at hd
  rcases hd with rfl | rfl
  · exact (measurable_gaussianPDF 0 1).comp measurable_snd
  · simp only [List.map_cons, List.map_nil, List.headD_cons, gaussianPDF, gaussianPDFReal]
    fun_prop

/-- One number in the only latent variable. -/
def oneNumber (_ : Fin 1) (v : Unit → ℝ) : ℝ := v ()

theorem normalMean_dens (x : ℝ) (x0 : ℕ → ℝ) (q : (Σ _ : Fin 1, Unit) → ℝ) :
    posteriorDens normalMean (fun _ => "z") oneNumber [("x", x)] x0 q =
      gaussianPDF 0 1 (q ⟨0, ()⟩) * gaussianPDF (q ⟨0, ()⟩) 1 x := by
  have h : ∀ (a b : Decl ℝ) (x : ℕ → ℝ), jointDens [a, b] x =
      a.dens (a.parents.map x) (x 0) * b.dens (b.parents.map x) (x 1) := by
    intro a b x
    simp [jointDens, Fin.prod_univ_succ]
  rw [posteriorDens, normalMean, h]
  simp [placed, latentDict, Dict.get?, oneNumber]

/-- `C78_posterior_invariant` applies to this model with any number of chains, each with its own observation. -/
theorem normalMean_case {C : Type} (x : C → ℝ) (x0 : ℕ → ℝ) :
    (normalMean.map Decl.name).Nodup ∧ Complete normalMean (fun _ : Fin 1 => "z") [("x", x)] ∧
    (∃ logPost : (C → (Σ _ : Fin 1, Unit) → ℝ) → C → ℝ, ∀ q, ∃ dr l,
      getLogPosterior dr (some .unset) normalMean (List.ofFn fun _ : Fin 1 => "z") [("x", x)]
        (latentTensors oneNumber q) = .ok l ∧ ∀ c, l c = (logPost q c : EReal)) ∧
    ∀ c, ∫⁻ q, posteriorDens normalMean (fun _ => "z") oneNumber (atChain [("x", x)] c) x0 q ≠ ∞ := by
  refine ⟨normalMean_wf.1, ?_, ⟨fun q c => (posteriorDens normalMean (fun _ => "z") oneNumber
    (atChain [("x", x)] c) x0 (q c)).log.toReal, fun q => ?_⟩, fun c => ?_⟩
  · intro d hd
    simp only [normalMean, List.mem_cons, List.not_mem_nil, or_false] at hd
    rcases hd with rfl | rfl
    · exact Or.inr ⟨0, rfl⟩
    · exact Or.inl rfl
  · obtain ⟨l, h1, h2⟩ := C78_log_posterior (C := C) (fun i _ => x0 i) (some .unset) (Or.inr rfl) normalMean
      normalMean_wf (fun _ : Fin 1 => "z") (fun a b _ => Subsingleton.elim a b) oneNumber [("x", x)]
      (by simp [Dict.WF, Dict.keys]) q
    refine ⟨_, l, h1, fun c => ?_⟩
    rw [h2 c, EReal.coe_toReal]
    · rw [Ne, ENNReal.log_eq_top_iff]
      rw [atChain, List.map_cons, List.map_nil, normalMean_dens]
      exact ENNReal.mul_ne_top (gaussianPDF_lt_top).ne (gaussianPDF_lt_top).ne
    · rw [Ne, ENNReal.log_eq_bot_iff]
      rw [atChain, List.map_cons, List.map_nil, normalMean_dens]
      exact mul_ne_zero (gaussianPDF_pos 0 one_ne_zero _).ne' (gaussianPDF_pos _ one_ne_zero _).ne'
  · simp only [atChain, List.map_cons, List.map_nil, normalMean_dens]
    have hb : ∀ z y : ℝ, gaussianPDF z 1 y ≤ 1 := by
      intro z y
      rw [gaussianPDF, ENNReal.ofReal_le_one, gaussianPDFReal]
      refine mul_le_one₀ (inv_le_one_of_one_le₀ ?_) (Real.exp_pos _).le (Real.exp_le_one_iff.2 ?_)
      · rw [Real.one_le_sqrt]
        have := Real.two_le_pi
        simp only [NNReal.coe_one]
        linarith
      · have := sq_nonneg (y - z)
        simp only [NNReal.coe_one]
        linarith
    have hle : ∫⁻ q : (Σ _ : Fin 1, Unit) → ℝ, gaussianPDF 0 1 (q ⟨0, ()⟩) * gaussianPDF (q ⟨0, ()⟩) 1 (x c) ≤
        ∫⁻ q : (Σ _ : Fin 1, Unit) → ℝ, gaussianPDF 0 1 (q ⟨0, ()⟩) :=
      lintegral_mono fun q => mul_le_of_le_one_right' (hb _ _)
    refine ne_top_of_le_ne_top ?_ hle
    let _ : Unique (Σ _ : Fin 1, Unit) := ⟨⟨⟨0, ()⟩⟩, fun a => by
      obtain ⟨a, b⟩ := a; simp [Subsingleton.elim a 0]⟩
    have h := (volume_preserving_funUnique (Σ _ : Fin 1, Unit) ℝ).lintegral_comp (measurable_gaussianPDF 0 1)
    have e : (∫⁻ q : (Σ _ : Fin 1, Unit) → ℝ, gaussianPDF 0 1 (q ⟨0, ()⟩)) =
        ∫⁻ y, gaussianPDF 0 1 y := h
    rw [e, lintegral_gaussianPDF_eq_one 0 one_ne_zero]
    exact ENNReal.one_ne_top

/-- Why every node has to be observed or latent: a node that is neither is sampled anew in every evaluation of
the log posterior, so that two evaluations at the same values of the latent variables differ (the Metropolis
test of hmc.py 478–485 then compares densities at different values of that node). -/
theorem C78_fresh_draws : ∃ (prog : List (Decl ℝ)) (dr dr' : ℕ → Unit → ℝ) (q : Unit → (Σ _ : Fin 1, Unit) → ℝ)
    (l l' : Unit → EReal), WellFormed prog ∧
    getLogPosterior dr none prog (List.ofFn fun _ : Fin 1 => "z") [] (latentTensors oneNumber q) = .ok l ∧
    getLogPosterior dr' none prog (List.ofFn fun _ : Fin 1 => "z") [] (latentTensors oneNumber q) = .ok l' ∧
    l () ≠ l' () := by
  have hd : ∀ (x0 : ℕ → ℝ) (q : (Σ _ : Fin 1, Unit) → ℝ),
      posteriorDens normalMean (fun _ => "z") oneNumber [] x0 q =
        gaussianPDF 0 1 (q ⟨0, ()⟩) * gaussianPDF (q ⟨0, ()⟩) 1 (x0 1) := by
    intro x0 q
    have h : ∀ (a b : Decl ℝ) (x : ℕ → ℝ), jointDens [a, b] x =
        a.dens (a.parents.map x) (x 0) * b.dens (b.parents.map x) (x 1) := by
      intro a b x
      simp [jointDens, Fin.prod_univ_succ]
    rw [posteriorDens, normalMean, h]
    simp [placed, latentDict, Dict.get?, oneNumber]
  have hw : Dict.WF ([] : Dict Name (Unit → ℝ)) := by simp [Dict.WF, Dict.keys]
  obtain ⟨l, h1, h2⟩ := C78_log_posterior (C := Unit) (fun _ _ => (0 : ℝ)) none (Or.inl rfl) normalMean
    normalMean_wf (fun _ : Fin 1 => "z") (fun a b _ => Subsingleton.elim a b) oneNumber [] hw (fun _ _ => 0)
  obtain ⟨l', h1', h2'⟩ := C78_log_posterior (C := Unit) (fun _ _ => (1 : ℝ)) none (Or.inl rfl) normalMean
    normalMean_wf (fun _ : Fin 1 => "z") (fun a b _ => Subsingleton.elim a b) oneNumber [] hw (fun _ _ => 0)
  refine ⟨normalMean, _, _, _, l, l', normalMean_wf, h1, h1', fun h => ?_⟩
  rw [h2 (), h2' ()] at h
  have h3 := congrArg EReal.exp h
  rw [ENNReal.exp_log, ENNReal.exp_log] at h3
  simp only [atChain, List.map_nil, hd] at h3
  rw [ENNReal.mul_right_inj (gaussianPDF_pos 0 one_ne_zero _).ne' gaussianPDF_lt_top.ne] at h3
  simp only [gaussianPDF] at h3
  rw [ENNReal.ofReal_eq_ofReal_iff (gaussianPDFReal_nonneg _ _ _) (gaussianPDFReal_nonneg _ _ _)] at h3
  simp only [gaussianPDFReal] at h3
  have hpos : (Real.sqrt (2 * Real.pi * ((1 : NNReal) : ℝ)))⁻¹ ≠ 0 := by
    have := Real.pi_pos
    positivity
  have h4 := Real.exp_injective (mul_left_cancel₀ hpos h3)
  norm_num at h4

end ZhuSuan.BN
