import Verif.Props.NetMcmc
import Verif.Props.HmcConv

/-!
# C89  HMC on a net converges to the posterior of the model
-/

set_option autoImplicit false

open MeasureTheory Set ProbabilityTheory
open scoped ENNReal

namespace ZhuSuan.BN

variable {C X : Type} {k : ℕ} {κ : Fin k → Type}
variable [MeasurableSpace X] [Fintype C] [∀ i, Fintype (κ i)]

omit [MeasurableSpace X] [Fintype C] in
/-- The posterior of the model is the posterior of its log joint. -/
theorem posterior_eq_hmc (prog : List (Decl X)) (names : Fin k → Name) (mk : (i : Fin k) → (κ i → ℝ) → X)
    (observed : Dict Name (C → X)) (x0 : ℕ → X) (lp : C → ((Σ i, κ i) → ℝ) → ℝ)
    (hd : ∀ c q, ENNReal.ofReal (Real.exp (lp c q)) = posteriorDens prog names mk (atChain observed c) x0 q) (c : C) :
    Hmc.posterior (lp c) = posterior prog names mk (atChain observed c) x0 := by
  simp only [Hmc.posterior, posterior, hd]

/-- **C89.** HMC without adaptation on a net whose nodes are all observed or latent variables, with short
trajectories: from every start the joint law of the latent variables of all chains converges in total variation
to independent draws from the posterior of the model given each chain's observations. -/
theorem C89_converges (m : Option (LogJoint (C → EReal))) (hm : m = none ∨ m = some .unset)
    (prog : List (Decl X)) (hwf : WellFormed prog)
    (hmeas : ∀ d ∈ prog, Measurable (fun p : (ℕ → X) × X => d.dens (d.parents.map p.1) p.2))
    (names : Fin k → Name) (hn : Function.Injective names)
    (mk : (i : Fin k) → (κ i → ℝ) → X) (hmk : ∀ i, Measurable (mk i)) (observed : Dict Name (C → X))
    (ho : observed.WF) (hc : Complete prog names observed) (x0 : ℕ → X)
    (logPost : (C → (Σ i, κ i) → ℝ) → C → ℝ)
    (hlp : ∀ q, ∃ dr l, getLogPosterior dr m prog (List.ofFn names) observed (latentTensors mk q) = .ok l ∧
      ∀ c, l c = (logPost q c : EReal))
    (hZ : ∀ c, ∫⁻ q, posteriorDens prog names mk (atChain observed c) x0 q ≠ ∞)
    (g : C → ((Σ i, κ i) → ℝ) → (Σ i, κ i) → ℝ) (hg : ∀ c, Measurable (g c))
    (cfg : Hmc.Cfg ℝ) (h1 : cfg.adaptsStep = false) (h2 : cfg.adaptsMass = false) (feed : Hmc.Feed)
    (s : Hmc.State ℝ C (Σ i, κ i)) (hs : Hmc.ShortPath (fun _ => 1) g cfg.nLeapfrogs s.stepSize) :
    ∀ δ > 0, ∃ n0, ∀ n ≥ n0,
      ∃ final : (Fin n → (C → (Σ i, κ i) → ℝ) × (C → ℝ)) → C → (Σ i, κ i) → ℝ, Measurable final ∧
      (∀ w, Hmc.runs cfg logPost (fun q c => g c (q c)) feed s n w = some { s with q := final w }) ∧
      ∀ A, MeasurableSet A →
        |((Measure.pi fun _ : Fin n => Hmc.draws C (Σ i, κ i)).map final).real A -
          (Measure.pi fun c => posterior prog names mk (atChain observed c) x0).real A| ≤ δ := by
  obtain ⟨lp, ml, el, hd⟩ := logPosterior_split m hm prog hwf hmeas names hn mk hmk observed ho hc x0 logPost hlp
  have hfin : ∀ c, ∫⁻ q, ENNReal.ofReal (Real.exp (lp c q)) ≠ ∞ := fun c => by simpa only [hd] using hZ c
  have h := Hmc.C86_converges cfg h1 h2 feed lp ml hfin g hg s hs
  simp only [posterior_eq_hmc prog names mk observed x0 lp hd] at h
  subst el
  exact h

/-- **C89.** The same after a burn-in with adaptation of the step size and possibly the mass. -/
theorem C89_after_burn_in (m : Option (LogJoint (C → EReal))) (hm : m = none ∨ m = some .unset)
    (prog : List (Decl X)) (hwf : WellFormed prog)
    (hmeas : ∀ d ∈ prog, Measurable (fun p : (ℕ → X) × X => d.dens (d.parents.map p.1) p.2))
    (names : Fin k → Name) (hn : Function.Injective names)
    (mk : (i : Fin k) → (κ i → ℝ) → X) (hmk : ∀ i, Measurable (mk i)) (observed : Dict Name (C → X))
    (ho : observed.WF) (hc : Complete prog names observed) (x0 : ℕ → X)
    (logPost : (C → (Σ i, κ i) → ℝ) → C → ℝ)
    (hlp : ∀ q, ∃ dr l, getLogPosterior dr m prog (List.ofFn names) observed (latentTensors mk q) = .ok l ∧
      ∀ c, l c = (logPost q c : EReal))
    (hZ : ∀ c, ∫⁻ q, posteriorDens prog names mk (atChain observed c) x0 q ≠ ∞)
    (g : C → ((Σ i, κ i) → ℝ) → (Σ i, κ i) → ℝ) (hg : ∀ c, Measurable (g c))
    (cfg : Hmc.Cfg ℝ) (feed : Hmc.Feed) (hf1 : feed.adaptStep = false) (hf2 : feed.adaptMass = false)
    (s : Hmc.State ℝ C (Σ i, κ i)) (ht : 1 ≤ s.t) (ht' : cfg.massCollect ≤ s.t)
    (hv : cfg.adaptsMass = true → ∀ i, 0 < s.ewmv.var i)
    (hs0 : Hmc.ShortPath (Hmc.burnedMass cfg s) g cfg.nLeapfrogs (Hmc.burnedStep cfg s 0))
    (hs1 : Hmc.ShortPath (Hmc.burnedMass cfg s) g cfg.nLeapfrogs (Hmc.burnedStep cfg s 1)) :
    ∀ δ > 0, ∃ n0, ∀ n ≥ n0,
      ∃ final : (Fin n → (C → (Σ i, κ i) → ℝ) × (C → ℝ)) → C → (Σ i, κ i) → ℝ, Measurable final ∧
      (∀ w, ∃ s', Hmc.runs cfg logPost (fun q c => g c (q c)) feed s n w = some s' ∧ s'.q = final w) ∧
      ∀ A, MeasurableSet A →
        |((Measure.pi fun _ : Fin n => Hmc.draws C (Σ i, κ i)).map final).real A -
          (Measure.pi fun c => posterior prog names mk (atChain observed c) x0).real A| ≤ δ := by
  obtain ⟨lp, ml, el, hd⟩ := logPosterior_split m hm prog hwf hmeas names hn mk hmk observed ho hc x0 logPost hlp
  have hfin : ∀ c, ∫⁻ q, ENNReal.ofReal (Real.exp (lp c q)) ≠ ∞ := fun c => by simpa only [hd] using hZ c
  have h := Hmc.C86_after_burn_in cfg feed hf1 hf2 lp ml hfin g hg s ht ht' hv hs0 hs1
  simp only [posterior_eq_hmc prog names mk observed x0 lp hd] at h
  subst el
  exact h

/-- **C89.** Under the conditions of `C89_converges` averages over the draws of a chain converge in probability to
expectations under the posterior of the model given that chain's observations. -/
theorem C89_averages (m : Option (LogJoint (C → EReal))) (hm : m = none ∨ m = some .unset)
    (prog : List (Decl X)) (hwf : WellFormed prog)
    (hmeas : ∀ d ∈ prog, Measurable (fun p : (ℕ → X) × X => d.dens (d.parents.map p.1) p.2))
    (names : Fin k → Name) (hn : Function.Injective names)
    (mk : (i : Fin k) → (κ i → ℝ) → X) (hmk : ∀ i, Measurable (mk i)) (observed : Dict Name (C → X))
    (ho : observed.WF) (hc : Complete prog names observed) (x0 : ℕ → X)
    (logPost : (C → (Σ i, κ i) → ℝ) → C → ℝ)
    (hlp : ∀ q, ∃ dr l, getLogPosterior dr m prog (List.ofFn names) observed (latentTensors mk q) = .ok l ∧
      ∀ c, l c = (logPost q c : EReal))
    (hZ : ∀ c, ∫⁻ q, posteriorDens prog names mk (atChain observed c) x0 q ≠ ∞)
    (g : C → ((Σ i, κ i) → ℝ) → (Σ i, κ i) → ℝ) (hg : ∀ c, Measurable (g c))
    (cfg : Hmc.Cfg ℝ) (h1 : cfg.adaptsStep = false) (h2 : cfg.adaptsMass = false) (feed : Hmc.Feed)
    (s : Hmc.State ℝ C (Σ i, κ i)) (hs : Hmc.ShortPath (fun _ => 1) g cfg.nLeapfrogs s.stepSize)
    (c : C) (f : ((Σ i, κ i) → ℝ) → ℝ) (hf : Measurable f)
    (hi : Integrable f (posterior prog names mk (atChain observed c) x0)) :
    ∀ δ > 0, ∀ ε > 0, ∃ n0, ∀ n ≥ n0,
      ∃ x : Fin n → (Fin n → (C → (Σ i, κ i) → ℝ) × (C → ℝ)) → C → (Σ i, κ i) → ℝ,
      (∀ (j : Fin n) w, Hmc.runs cfg logPost (fun q c => g c (q c)) feed s (j + 1) (fun i => w (Fin.castLE j.2 i)) =
        some { s with q := x j w }) ∧
      (Measure.pi fun _ : Fin n => Hmc.draws C (Σ i, κ i))
        {w | δ < |(∑ j, f (x j w c)) / n - ∫ q, f q ∂(posterior prog names mk (atChain observed c) x0)|} ≤
          ENNReal.ofReal ε := by
  obtain ⟨lp, ml, el, hd⟩ := logPosterior_split m hm prog hwf hmeas names hn mk hmk observed ho hc x0 logPost hlp
  have hfin : ∀ c, ∫⁻ q, ENNReal.ofReal (Real.exp (lp c q)) ≠ ∞ := fun c => by simpa only [hd] using hZ c
  have h := Hmc.C87_averages cfg h1 h2 feed lp ml hfin g hg s hs c f hf
    (by rw [posterior_eq_hmc prog names mk observed x0 lp hd]; exact hi)
  simp only [posterior_eq_hmc prog names mk observed x0 lp hd] at h
  subst el
  exact h

/-- **C89.** The same averages after a burn-in with adaptation. -/
theorem C89_averages_after_burn_in (m : Option (LogJoint (C → EReal))) (hm : m = none ∨ m = some .unset)
    (prog : List (Decl X)) (hwf : WellFormed prog)
    (hmeas : ∀ d ∈ prog, Measurable (fun p : (ℕ → X) × X => d.dens (d.parents.map p.1) p.2))
    (names : Fin k → Name) (hn : Function.Injective names)
    (mk : (i : Fin k) → (κ i → ℝ) → X) (hmk : ∀ i, Measurable (mk i)) (observed : Dict Name (C → X))
    (ho : observed.WF) (hc : Complete prog names observed) (x0 : ℕ → X)
    (logPost : (C → (Σ i, κ i) → ℝ) → C → ℝ)
    (hlp : ∀ q, ∃ dr l, getLogPosterior dr m prog (List.ofFn names) observed (latentTensors mk q) = .ok l ∧
      ∀ c, l c = (logPost q c : EReal))
    (hZ : ∀ c, ∫⁻ q, posteriorDens prog names mk (atChain observed c) x0 q ≠ ∞)
    (g : C → ((Σ i, κ i) → ℝ) → (Σ i, κ i) → ℝ) (hg : ∀ c, Measurable (g c))
    (cfg : Hmc.Cfg ℝ) (feed : Hmc.Feed) (hf1 : feed.adaptStep = false) (hf2 : feed.adaptMass = false)
    (s : Hmc.State ℝ C (Σ i, κ i)) (ht : 1 ≤ s.t) (ht' : cfg.massCollect ≤ s.t)
    (hv : cfg.adaptsMass = true → ∀ i, 0 < s.ewmv.var i)
    (hs0 : Hmc.ShortPath (Hmc.burnedMass cfg s) g cfg.nLeapfrogs (Hmc.burnedStep cfg s 0))
    (hs1 : Hmc.ShortPath (Hmc.burnedMass cfg s) g cfg.nLeapfrogs (Hmc.burnedStep cfg s 1))
    (c : C) (f : ((Σ i, κ i) → ℝ) → ℝ) (hf : Measurable f)
    (hi : Integrable f (posterior prog names mk (atChain observed c) x0)) :
    ∀ δ > 0, ∀ ε > 0, ∃ n0, ∀ n ≥ n0,
      ∃ x : Fin n → (Fin n → (C → (Σ i, κ i) → ℝ) × (C → ℝ)) → C → (Σ i, κ i) → ℝ,
      (∀ (j : Fin n) w, ∃ s', Hmc.runs cfg logPost (fun q c => g c (q c)) feed s (j + 1)
        (fun i => w (Fin.castLE j.2 i)) = some s' ∧ s'.q = x j w) ∧
      (Measure.pi fun _ : Fin n => Hmc.draws C (Σ i, κ i))
        {w | δ < |(∑ j, f (x j w c)) / n - ∫ q, f q ∂(posterior prog names mk (atChain observed c) x0)|} ≤
          ENNReal.ofReal ε := by
  obtain ⟨lp, ml, el, hd⟩ := logPosterior_split m hm prog hwf hmeas names hn mk hmk observed ho hc x0 logPost hlp
  have hfin : ∀ c, ∫⁻ q, ENNReal.ofReal (Real.exp (lp c q)) ≠ ∞ := fun c => by simpa only [hd] using hZ c
  have h := Hmc.C87_after_burn_in cfg feed hf1 hf2 lp ml hfin g hg s ht ht' hv hs0 hs1 c f hf
    (by rw [posterior_eq_hmc prog names mk observed x0 lp hd]; exact hi)
  simp only [posterior_eq_hmc prog names mk observed x0 lp hd] at h
  subst el
  exact h

/-! ### A case: the mean of a normal distribution

`z` is standard normal and `x` normal with mean `z`; so the posterior of `z` is normal with mean `x / 2` and variance
`1 / 2`. -/

theorem gaussian_bayes (x z : ℝ) :
    gaussianPDF 0 1 z * gaussianPDF z 1 x = gaussianPDF 0 2 x * gaussianPDF (x / 2) (1 / 2) z := by
  simp only [gaussianPDF]
  rw [← ENNReal.ofReal_mul (gaussianPDFReal_nonneg _ _ _), ← ENNReal.ofReal_mul (gaussianPDFReal_nonneg _ _ _)]
  congr 1
  simp only [gaussianPDFReal]
  have e : ∀ a b c d : ℝ, a * b * (c * d) = a * c * (b * d) := fun a b c d => by ring
  refine (e _ _ _ _).trans (Eq.trans ?_ (e _ _ _ _).symm)
  rw [← Real.exp_add, ← Real.exp_add, ← mul_inv, ← mul_inv]
  congr 1
  · rw [← Real.sqrt_mul (by positivity), ← Real.sqrt_mul (by positivity)]
    congr 2
    push_cast
    ring
  · congr 1
    push_cast
    ring

/-- The posterior of the model is the one of the textbook. -/
theorem normalMean_posterior (x : ℝ) (x0 : ℕ → ℝ) :
    posterior normalMean (fun _ : Fin 1 => "z") oneNumber [("x", x)] x0 =
      (gaussianReal (x / 2) (1 / 2)).map fun (z : ℝ) (_ : Σ _ : Fin 1, Unit) => z := by
  let _ : Unique (Σ _ : Fin 1, Unit) := ⟨⟨⟨0, ()⟩⟩, fun a => by
    obtain ⟨a, b⟩ := a; simp [Subsingleton.elim a 0]⟩
  have hmp := volume_preserving_funUnique (Σ _ : Fin 1, Unit) ℝ
  have hx0 : gaussianPDF 0 2 x ≠ 0 := (gaussianPDF_pos 0 two_ne_zero x).ne'
  have hx1 : gaussianPDF 0 2 x ≠ ∞ := gaussianPDF_lt_top.ne
  have hZ : ∫⁻ q, posteriorDens normalMean (fun _ : Fin 1 => "z") oneNumber [("x", x)] x0 q = gaussianPDF 0 2 x := by
    simp only [normalMean_dens, gaussian_bayes]
    rw [lintegral_const_mul' _ _ hx1]
    have h := hmp.lintegral_comp (measurable_gaussianPDF (x / 2) (1 / 2))
    have e : (∫⁻ q : (Σ _ : Fin 1, Unit) → ℝ, gaussianPDF (x / 2) (1 / 2) (q ⟨0, ()⟩)) =
        ∫⁻ y, gaussianPDF (x / 2) (1 / 2) y := h
    rw [e, lintegral_gaussianPDF_eq_one _ (by norm_num), mul_one]
  have hm : Measurable fun (z : ℝ) (_ : Σ _ : Fin 1, Unit) => z := measurable_pi_lambda _ fun _ => measurable_id
  rw [posterior, hZ]
  ext A hA
  rw [Measure.map_apply hm hA, gaussianReal_of_var_ne_zero _ (by norm_num), withDensity_apply _ (hm hA),
    Measure.smul_apply, withDensity_apply _ hA, smul_eq_mul]
  simp only [normalMean_dens, gaussian_bayes]
  rw [lintegral_const_mul' _ _ hx1, ← mul_assoc, ENNReal.inv_mul_cancel hx0 hx1, one_mul]
  have h := hmp.setLIntegral_comp_preimage (hm hA) (measurable_gaussianPDF (x / 2) (1 / 2))
  rw [← h]
  refine lintegral_congr_ae ?_ |>.trans (congrArg (fun B => ∫⁻ q in B, gaussianPDF (x / 2) (1 / 2)
    (MeasurableEquiv.funUnique (Σ _ : Fin 1, Unit) ℝ q)) ?_)
  · exact .of_forall fun q => rfl
  · ext q
    have e : (fun _ : Σ _ : Fin 1, Unit => MeasurableEquiv.funUnique (Σ _ : Fin 1, Unit) ℝ q) = q := by
      funext i
      rw [Subsingleton.elim i default]
      rfl
    simp only [mem_preimage, e]

/-- Ten leapfrog steps of size 0.05: from every start the chains converge to the textbook posterior, each with its own
observation. -/
example (x : C → ℝ) (cfg : Hmc.Cfg ℝ) (h1 : cfg.adaptsStep = false) (h2 : cfg.adaptsMass = false)
    (h3 : cfg.nLeapfrogs = 10) (feed : Hmc.Feed) (s : Hmc.State ℝ C (Σ _ : Fin 1, Unit)) (hs : s.stepSize = 0.05) :
    ∃ logPost : (C → (Σ _ : Fin 1, Unit) → ℝ) → C → ℝ,
      (∀ q, ∃ dr l, getLogPosterior dr (some .unset) normalMean (List.ofFn fun _ : Fin 1 => "z") [("x", x)]
        (latentTensors oneNumber q) = .ok l ∧ ∀ c, l c = (logPost q c : EReal)) ∧
      ∀ δ > 0, ∃ n0, ∀ n ≥ n0, ∃ final : (Fin n → (C → (Σ _ : Fin 1, Unit) → ℝ) × (C → ℝ)) → C → (Σ _ : Fin 1, Unit) → ℝ,
        Measurable final ∧
        (∀ w, Hmc.runs cfg logPost (fun q c _ => x c - 2 * q c ⟨0, ()⟩) feed s n w = some { s with q := final w }) ∧
        ∀ A, MeasurableSet A →
          |((Measure.pi fun _ : Fin n => Hmc.draws C (Σ _ : Fin 1, Unit)).map final).real A -
            (Measure.pi fun c => (gaussianReal (x c / 2) (1 / 2)).map fun (z : ℝ) (_ : Σ _ : Fin 1, Unit) => z).real A|
            ≤ δ := by
  obtain ⟨_, hc, ⟨logPost, hlp⟩, hZ⟩ := normalMean_case x (fun _ => 0)
  refine ⟨logPost, hlp, ?_⟩
  have hsp : Hmc.ShortPath (fun _ => 1) (fun c (q : (Σ _ : Fin 1, Unit) → ℝ) _ => x c - 2 * q ⟨0, ()⟩) cfg.nLeapfrogs
      s.stepSize := by
    refine ⟨by omega, by rw [hs]; norm_num, 2, by norm_num, by rw [h3, hs]; norm_num, fun c q r => ?_⟩
    refine (pi_norm_le_iff_of_nonneg (by positivity)).2 fun i => ?_
    have hb := norm_le_pi_norm (q - r) ⟨0, ()⟩
    have e : (x c - 2 * q ⟨0, ()⟩ - (x c - 2 * r ⟨0, ()⟩)) / 1 = -(2 * (q - r) ⟨0, ()⟩) := by
      simp only [Pi.sub_apply]
      ring
    rw [e, norm_neg, norm_mul, Real.norm_two]
    gcongr
  have h := C89_converges (some .unset) (Or.inr rfl) normalMean normalMean_wf normalMean_meas (fun _ : Fin 1 => "z")
    (fun a b _ => Subsingleton.elim a b) oneNumber (fun _ => measurable_pi_apply _) [("x", x)]
    (by simp [Dict.WF, Dict.keys]) hc (fun _ => 0) logPost hlp hZ
    (fun c q _ => x c - 2 * q ⟨0, ()⟩) (fun c => by fun_prop) cfg h1 h2 feed s hsp
  have e : ∀ c, atChain [("x", x)] c = [("x", x c)] := fun c => rfl
  simp only [e, normalMean_posterior] at h
  exact h

end ZhuSuan.BN
