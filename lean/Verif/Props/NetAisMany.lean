import Verif.Props.NetAis
import Verif.Props.AisMany
import Verif.Props.NetHmcConv

/-!
# C79: AIS on two nets with many chains
-/

set_option autoImplicit false

open MeasureTheory Set ProbabilityTheory
open scoped ENNReal

namespace ZhuSuan.BN
open ZhuSuan.VObj

variable {X D : Type} {k : ℕ} {κ : Fin k → Type}
variable [MeasurableSpace X] [Fintype D] [Nonempty D] [∀ i, Fintype (κ i)]

/-- The observations of the data points, given to each of their chains. -/
def forChains (K : Type) (data : Dict Name (D → X)) : Dict Name (K × D → X) :=
  data.map fun e => (e.1, fun c => e.2 c.2)

omit [MeasurableSpace X] [Fintype D] [Nonempty D] in
theorem atChain_forChains (K : Type) (data : Dict Name (D → X)) (c : K × D) :
    atChain (forChains K data) c = atChain data c.2 := by
  simp [atChain, forChains, Function.comp_def]

omit [MeasurableSpace X] [Fintype D] [Nonempty D] in
theorem forChains_wf (K : Type) (data : Dict Name (D → X)) (h : data.WF) : (forChains K data).WF := by
  simpa [Dict.WF, Dict.keys, forChains, Function.comp_def] using h

omit [MeasurableSpace X] [∀ i, Fintype (κ i)] in
/-- Positive and finite densities have a finite log joint. -/
theorem posteriorDens_pos (prog : List (Decl X))
    (hpos : ∀ d ∈ prog, ∀ (v : ℕ → X) x, d.dens (d.parents.map v) x ≠ 0 ∧ d.dens (d.parents.map v) x ≠ ∞)
    (names : Fin k → Name) (mk : (i : Fin k) → (κ i → ℝ) → X) (observed : Dict Name X) (x0 : ℕ → X)
    (q : (Σ i, κ i) → ℝ) :
    posteriorDens prog names mk observed x0 q ≠ 0 ∧ posteriorDens prog names mk observed x0 q ≠ ∞ := by
  unfold posteriorDens jointDens
  refine ⟨Finset.prod_ne_zero_iff.2 fun i _ => (hpos _ (List.get_mem _ _) _ _).1,
    ENNReal.prod_ne_top fun i _ => (hpos _ (List.get_mem _ _) _ _).2⟩

omit [MeasurableSpace X] [∀ i, Fintype (κ i)] in
theorem finite_logs {C : Type} (prog : List (Decl X)) (hwf : WellFormed prog)
    (hpos : ∀ d ∈ prog, ∀ (v : ℕ → X) x, d.dens (d.parents.map v) x ≠ 0 ∧ d.dens (d.parents.map v) x ≠ ∞)
    (names : Fin k → Name) (hn : Function.Injective names) (mk : (i : Fin k) → (κ i → ℝ) → X)
    (observed : Dict Name (C → X)) (ho : observed.WF) (hno : ∀ i, observed.get? (names i) = none) (x0 : X) :
    ∃ lp : (C → (Σ i, κ i) → ℝ) → C → ℝ,
      (∀ q, ∃ dr l, getLogPosterior dr none prog (List.ofFn names) observed (latentTensors mk q) = .ok l ∧
        ∀ c, l c = (lp q c : EReal)) ∧
      (∀ q, ∃ dr l, netLogJoint dr none prog (valObs (List.ofFn names) (latentTensors mk q) observed) = .ok l ∧
        ∀ c, l c = (lp q c : EReal)) := by
  have key : ∀ q : C → (Σ i, κ i) → ℝ, ∃ dr l, getLogPosterior dr none prog (List.ofFn names) observed
      (latentTensors mk q) = .ok l ∧ ∀ c, l c =
        ((posteriorDens prog names mk (atChain observed c) (fun _ => x0) (q c)).log.toReal : EReal) := by
    intro q
    obtain ⟨l, a, b⟩ := C78_log_posterior (fun _ _ => x0) none (Or.inl rfl) prog hwf names hn mk observed ho q
    refine ⟨_, l, a, fun c => ?_⟩
    have h := posteriorDens_pos prog hpos names mk (atChain observed c) (fun _ => x0) (q c)
    rw [b c]
    exact log_real h.1 h.2
  refine ⟨_, key, fun q => ?_⟩
  obtain ⟨dr, l, a, b⟩ := key q
  refine ⟨dr, l, ?_, b⟩
  rw [netLogJoint_valObs dr none (Or.inl rfl) prog hwf names hn _ _ ho hno, a]

/-- **C79.** AIS between two nets, with HMC without adaptation and densities that are positive and finite: as the
number of chains grows, the value that `AIS.run` returns converges in probability to the mean log evidence of the
data points. -/
theorem C79_consistent (μ : Name → Measure X) [∀ n, SigmaFinite (μ n)]
    (Q P : List (Decl X)) (hQ : WellFormed Q) (hP : WellFormed P)
    (hmQ : ∀ d ∈ Q, Measurable (fun p : (ℕ → X) × X => d.dens (d.parents.map p.1) p.2))
    (hmP : ∀ d ∈ P, Measurable (fun p : (ℕ → X) × X => d.dens (d.parents.map p.1) p.2))
    (hone : ∀ d ∈ Q, ∀ v : ℕ → X, ∫⁻ x, d.dens (d.parents.map v) x ∂(μ d.name) = 1)
    (names : Fin k → Name) (hn : Function.Injective names)
    (hlat : ∀ n, n ∈ Q.map Decl.name ↔ ∃ i, names i = n)
    (mk : (i : Fin k) → (κ i → ℝ) → X) (hmk : ∀ i, Measurable (mk i))
    (un : (i : Fin k) → X → κ i → ℝ) (hun : ∀ i, Measurable (un i)) (hinv : ∀ i v, un i (mk i v) = v)
    (hnum : OnNumbers μ names mk)
    (data : Dict Name (D → X)) (ho : data.WF) (hcov : ∀ d, Covers Q P (atChain data d))
    (hposQ : ∀ d ∈ Q, ∀ (v : ℕ → X) x, d.dens (d.parents.map v) x ≠ 0 ∧ d.dens (d.parents.map v) x ≠ ∞)
    (hposP : ∀ d ∈ P, ∀ (v : ℕ → X) x, d.dens (d.parents.map v) x ≠ 0 ∧ d.dens (d.parents.map v) x ≠ ∞)
    (g : ℝ → D → ((Σ i, κ i) → ℝ) → (Σ i, κ i) → ℝ) (hg : ∀ t d, Measurable (g t d))
    (cfg : Hmc.Cfg ℝ) (hc1 : cfg.adaptsStep = false) (hc2 : cfg.adaptsMass = false) (feed : Hmc.Feed)
    (n nAdapt : ℕ) (hn0 : n ≠ 0) (eps : ℝ) (w0 : ℕ → X) (x0 : X)
    (logZ : D → ℝ) (hZ : ∀ d, evidence μ P (atChain data d) x0 = ENNReal.ofReal (Real.exp (logZ d))) :
    ∀ δ > 0, ∀ ε > 0, ∃ K0, ∀ K ≥ K0,
      let C := Fin (K + 1) × D
      ∀ (mq m : Option (LogJoint (C → EReal))), (mq = none ∨ mq = some .unset) → (m = none ∨ m = some .unset) →
      ∀ (logPrior logJoint valPrior valJoint : (C → (Σ i, κ i) → ℝ) → C → ℝ),
      (∀ q, ∃ dr l, getLogPosterior dr mq Q (List.ofFn names) (forChains _ data) (latentTensors mk q) = .ok l ∧
        ∀ c, l c = (logPrior q c : EReal)) →
      (∀ q, ∃ dr l, getLogPosterior dr m P (List.ofFn names) (forChains _ data) (latentTensors mk q) = .ok l ∧
        ∀ c, l c = (logJoint q c : EReal)) →
      (∀ q, ∃ dr l, netLogJoint dr mq Q (valObs (List.ofFn names) (latentTensors mk q) (forChains _ data)) = .ok l ∧
        ∀ c, l c = (valPrior q c : EReal)) →
      (∀ q, ∃ dr l, netLogJoint dr m P (valObs (List.ofFn names) (latentTensors mk q) (forChains _ data)) = .ok l ∧
        ∀ c, l c = (valJoint q c : EReal)) →
      ∀ (s : Hmc.State ℝ C (Σ i, κ i)), s.stepSize = eps → ∀ (draw1 : C → ℕ → X)
        (adaptNoise : Fin nAdapt → (C → (Σ i, κ i) → ℝ) × (C → ℝ)),
      let op := Ais.hmcOp cfg feed logPrior logJoint (fun t q c => g t c.2 (q c))
      let proposal : Measure (C → ℕ → X) := Measure.pi fun _ => latentLaw μ Q w0
      let noise : Measure ((C → (Σ i, κ i) → ℝ) × (C → ℝ)) :=
        (Measure.pi fun _ => Measure.pi fun _ => gaussianReal 0 1).prod
          (Measure.pi fun _ => volume.restrict (Ico 0 1))
      ∃ R : (C → ℕ → X) × (Fin n → (C → (Σ i, κ i) → ℝ) × (C → ℝ)) → ℝ,
        (∀ w z, (Ais.logWeights op (initLatent un mq Q (List.ofFn names))
          (fun s c => Ais.logFn valPrior valJoint 0 s.q c) n nAdapt s draw1 w adaptNoise z).map
            (fun lw => Ais.result fun k d => lw (k, d)) = some (R (w, z))) ∧
        (proposal.prod (Measure.pi fun _ : Fin n => noise))
          {p | δ < |R p - (∑ d, logZ d) / Fintype.card D|} ≤ ENNReal.ofReal ε := by
  intro δ hδ ε hε
  have hno : ∀ i, data.get? (names i) = none := by
    intro i
    have h := ((hcov (Classical.arbitrary D) _).1 ((hlat _).2 ⟨i, rfl⟩)).2
    rw [atChain, get?_map (fun v : D → X => v _)] at h
    simpa using h
  obtain ⟨lq0, q1, q2⟩ := finite_logs Q hQ hposQ names hn mk data ho hno x0
  obtain ⟨lp0, p1, p2⟩ := finite_logs P hP hposP names hn mk data ho hno x0
  obtain ⟨lq, lp, _, mlq, mlp, _, _, _, _, _, _, _, hnorm, hev, elq, elp⟩ := ais_reduce μ Q P hQ hP none none
    (Or.inl rfl) (Or.inl rfl) hmQ hmP hone names hn hlat mk hmk un hun hinv hnum data ho hcov lq0 lp0 lq0 lp0
    q1 p1 q2 p2 w0 x0
  obtain ⟨K0, hK0⟩ := Ais.C49_consistent cfg hc1 hc2 feed lq lp mlq mlp hnorm logZ
    (fun d => (hev d).trans (hZ d)) g hg n nAdapt hn0 eps δ hδ ε hε
  refine ⟨K0, fun K hK => ?_⟩
  intro C mq m hmq hm logPrior logJoint valPrior valJoint h1 h2 h3 h4 s hs draw1 adaptNoise op proposal noise
  obtain ⟨lq', lp', num, _, _, mnum, elP, elJ, e3, e4, hinit, hlaw, _, _, elq', elp'⟩ := ais_reduce μ Q P hQ hP mq m
    hmq hm hmQ hmP hone names hn hlat mk hmk un hun hinv hnum (forChains (Fin (K + 1)) data)
    (forChains_wf _ data ho) (fun c => by rw [atChain_forChains]; exact hcov c.2) logPrior logJoint valPrior valJoint
    h1 h2 h3 h4 w0 x0
  have eq' : lq' = fun c => lq c.2 := by
    funext c q
    rw [elq', elq, atChain_forChains]
  have ep' : lp' = fun c => lp c.2 := by
    funext c q
    rw [elp', elp, atChain_forChains]
  subst eq' ep'
  obtain ⟨R, hR, hb⟩ := hK0 K hK s hs (fun c => num (draw1 c)) adaptNoise
  have hprob := latentLaw_prob μ hQ hmQ hone w0
  have hu : IsProbabilityMeasure (volume.restrict (Ico (0 : ℝ) 1)) := ⟨by simp⟩
  have mall : Measurable fun p : (C → ℕ → X) × (Fin n → (C → (Σ i, κ i) → ℝ) × (C → ℝ)) =>
      ((fun c => num (p.1 c)), p.2) :=
    (measurable_pi_iff.2 fun c => mnum.comp ((measurable_pi_apply c).comp measurable_fst)).prodMk measurable_snd
  refine ⟨fun p => R (fun c => num (p.1 c), p.2), fun w z => ?_, ?_⟩
  · rw [← hR (fun c => num (w c)) z]
    subst e3 e4
    simp only [op, Ais.logWeights, hinit, elP, elJ]
    rfl
  · have hsf : ∀ _ : C, SigmaFinite ((latentLaw μ Q w0).map num) := fun _ => by
      have := Measure.isProbabilityMeasure_map (μ := latentLaw μ Q w0) mnum.aemeasurable
      infer_instance
    have hpi : (Measure.pi fun c : C => volume.withDensity fun q => ENNReal.ofReal (Real.exp (lq c.2 q))) =
        proposal.map fun w c => num (w c) := by
      simp only [← hlaw]
      exact (Measure.pi_map_pi (fun _ => mnum.aemeasurable)).symm
    have hprod : (proposal.map fun w c => num (w c)).prod (Measure.pi fun _ : Fin n => noise) =
        (proposal.prod (Measure.pi fun _ : Fin n => noise)).map
          fun p => ((fun c => num (p.1 c)), p.2) := by
      have mn : Measurable fun (w : C → ℕ → X) c => num (w c) :=
        measurable_pi_iff.2 fun c => mnum.comp (measurable_pi_apply c)
      have h := Measure.map_prod_map proposal (Measure.pi fun _ : Fin n => noise) mn measurable_id
      rw [Measure.map_id] at h
      exact h
    rw [hpi, hprod] at hb
    exact (Measure.le_map_apply mall.aemeasurable _).trans hb

/-- A case that meets the hypotheses: the mean of a normal distribution, with the prior as the proposal and an
observation for each data point.  The log evidence is the log density of a normal distribution of variance 2. -/
example {D : Type} (x : D → ℝ) :
    (∀ d ∈ normalPrior, ∀ (v : ℕ → ℝ) y, d.dens (d.parents.map v) y ≠ 0 ∧ d.dens (d.parents.map v) y ≠ ∞) ∧
    (∀ d ∈ normalMean, ∀ (v : ℕ → ℝ) y, d.dens (d.parents.map v) y ≠ 0 ∧ d.dens (d.parents.map v) y ≠ ∞) ∧
    (∀ d, Covers normalPrior normalMean (atChain [("x", x)] d)) ∧
    ∀ d, evidence (fun _ => volume) normalMean (atChain [("x", x)] d) 0 =
      ENNReal.ofReal (Real.exp (Real.log (gaussianPDFReal 0 2 (x d)))) := by
  have hpos : ∀ a b : ℝ, gaussianPDF a 1 b ≠ 0 ∧ gaussianPDF a 1 b ≠ ∞ := fun a b =>
    ⟨(gaussianPDF_pos a one_ne_zero b).ne', gaussianPDF_lt_top.ne⟩
  have hcov : ∀ (d : D) n, (n ∈ normalMean.map Decl.name ∧ (atChain [("x", x)] d).get? n = none) ↔
      ∃ _ : Fin 1, "z" = n := by
    intro d n
    simp only [normalMean, atChain, List.map_cons, List.map_nil, List.mem_cons, List.not_mem_nil, or_false,
      Dict.get?]
    constructor
    · rintro ⟨rfl | rfl, h⟩
      · exact ⟨0, rfl⟩
      · simp at h
    · rintro ⟨_, rfl⟩
      simp
  refine ⟨?_, ?_, fun d n => ?_, fun d => ?_⟩
  · intro d hd v y
    simp only [normalPrior, List.mem_singleton] at hd
    subst hd
    exact hpos _ _
  · intro d hd v y
    simp only [normalMean, List.mem_cons, List.not_mem_nil, or_false] at hd
    rcases hd with rfl | rfl <;> exact hpos _ _
  · rw [hcov d n]
    simp [normalPrior, eq_comm]
  · have hx1 : gaussianPDF 0 2 (x d) ≠ ∞ := gaussianPDF_lt_top.ne
    rw [Real.exp_log (gaussianPDFReal_pos 0 2 _ (by norm_num)), ← C79_evidence (fun _ => (volume : Measure ℝ))
      normalMean normalMean_wf normalMean_meas (fun _ : Fin 1 => "z") (fun a b _ => Subsingleton.elim a b) oneNumber
      (fun _ => measurable_pi_apply ()) oneNumber_volume _ (hcov d) (fun _ => 0) 0]
    simp only [atChain, List.map_cons, List.map_nil, normalMean_dens, gaussian_bayes]
    rw [lintegral_const_mul' _ _ hx1]
    let _ : Unique (Σ _ : Fin 1, Unit) := ⟨⟨⟨0, ()⟩⟩, fun a => by
      obtain ⟨a, b⟩ := a; simp [Subsingleton.elim a 0]⟩
    have h := (volume_preserving_funUnique (Σ _ : Fin 1, Unit) ℝ).lintegral_comp
      (measurable_gaussianPDF (x d / 2) (1 / 2))
    have e : (∫⁻ q : (Σ _ : Fin 1, Unit) → ℝ, gaussianPDF (x d / 2) (1 / 2) (q ⟨0, ()⟩)) =
        ∫⁻ y, gaussianPDF (x d / 2) (1 / 2) y := h
    rw [e, lintegral_gaussianPDF_eq_one _ (by norm_num), mul_one]
    rfl

end ZhuSuan.BN
