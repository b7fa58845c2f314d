import Verif.Model.NetGrad
import Verif.Spec.NetGrad
import Verif.Props.NetIw
import Verif.Props.ScoreEst

/-!
# C81: the gradient estimators on two nets
-/

set_option autoImplicit false

namespace ZhuSuan.VObj
open ZhuSuan.BN ZhuSuan.Grad ZhuSuan.Grad.Dual
open scoped ENNReal
open MeasureTheory

/-! ### Sums -/

theorem dualSum_aux (l : List Dual) (a : Dual) :
    (l.foldl (fun a b => a + b) a).val = a.val + (l.map Dual.val).sum ∧
    (l.foldl (fun a b => a + b) a).der = a.der + (l.map Dual.der).sum := by
  induction l generalizing a with
  | nil => simp
  | cons x l ih =>
    obtain ⟨h1, h2⟩ := ih (a + x)
    simp only [List.foldl_cons, h1, h2, val_add, der_add, List.map_cons, List.sum_cons, add_assoc,
      and_self]

theorem dualSum_eq (l : List Dual) : dualSum l = ⟨(l.map Dual.val).sum, (l.map Dual.der).sum⟩ := by
  obtain ⟨h1, h2⟩ := dualSum_aux l (Dual.const 0)
  exact Dual.ext (by simpa [dualSum, Dual.const] using h1) (by simpa [dualSum, Dual.const] using h2)

theorem sum_getD {M : Type*} [AddCommMonoid M] (l : List M) :
    l.sum = ∑ i ∈ Finset.range l.length, l.getD i 0 := by
  induction l with
  | nil => simp
  | cons a l ih => rw [List.sum_cons, ih, List.length_cons, Finset.sum_range_succ', add_comm]; simp

theorem ereal_sum_toReal (l : List EReal) (h1 : l.sum ≠ ⊥) (h2 : l.sum ≠ ⊤) :
    l.sum.toReal = (l.map EReal.toReal).sum := by
  induction l with
  | nil => simp
  | cons a l ih =>
    rw [List.sum_cons] at h1 h2
    have ha : a ≠ ⊥ := fun h => h1 (by rw [h, EReal.bot_add])
    have hl : l.sum ≠ ⊥ := fun h => h1 (by rw [h, EReal.add_bot])
    have ha' : a ≠ ⊤ := fun h => h2 (by rw [h, EReal.top_add_of_ne_bot hl])
    have hl' : l.sum ≠ ⊤ := fun h => h2 (by rw [h, EReal.add_top_of_ne_bot ha])
    rw [List.sum_cons, EReal.toReal_add ha' ha hl' hl, ih hl hl', List.map_cons, List.sum_cons]

theorem list_sum_apply {A M : Type*} [AddCommMonoid M] (l : List (A → M)) (a : A) :
    l.sum a = (l.map (fun f => f a)).sum := by
  induction l with
  | nil => simp
  | cons f l ih => simp [ih]

theorem log_toReal (x : ℝ≥0∞) : x.log.toReal = Real.log x.toReal := by
  rcases eq_or_ne x 0 with h | h
  · simp [h]
  rcases eq_or_ne x ⊤ with h' | h'
  · simp [h']
  rw [ENNReal.log_pos_real h h', EReal.toReal_coe]

/-! ### The terms of the objective -/

section
variable {X E : Type} [MeasurableSpace X] {μ : Name → Measure X} {Q P : ℝ → List (Decl X)}
  {obs : Dict Name X} {dr : ℕ → (ℕ → X) → X} {l : ℝ → (ℕ → X) → EReal}
  {v : ℝ → VObj X ((ℕ → X) → EReal)} {θ : ℝ} {sample : ℝ → E → ℕ → X} {logJoint : E → Dual}
  {lps : List (Name × (E → Dual))}

theorem latentBase_congr {Q Q' : List (Decl X)} (h : Q.map Decl.name = Q'.map Decl.name) (w0 : ℕ → X) :
    latentBase μ Q w0 = latentBase μ Q' w0 := by
  have hlen : Q.length = Q'.length := by simpa using congrArg List.length h
  have hbase : baseOf μ Q = baseOf μ Q' := by
    funext i
    have := congrArg (fun l => l[i]?) h
    simp only [List.getElem?_map] at this
    unfold baseOf
    cases h1 : Q[i]? <;> cases h2 : Q'[i]? <;> simp_all
  unfold latentBase
  rw [hbase, hlen]

theorem Training.joint_real (h : Training μ Q P obs dr l v θ sample logJoint lps) (t : ℝ) (w : ℕ → X) :
    (l t w).toReal = logP (Q t) (P t) obs dr w := by
  obtain ⟨mq, m, q', hm, hr⟩ := h.ran t
  have hf := h.family.fits t
  rw [(C70_terms hf.wfQ hf.wfP hm (consts_wf hf.wfObs) hr w).1, log_toReal, logP]

theorem Training.prob_real (h : Training μ Q P obs dr l v θ sample logJoint lps) (t : ℝ) (w : ℕ → X) :
    (((v t).vLogProbs.map (fun p => (p.2 w).toReal))).sum = logQ (Q t) w := by
  obtain ⟨mq, m, q', hm, hr⟩ := h.ran t
  have hf := h.family.fits t
  obtain ⟨_, h2, _⟩ := C70_terms hf.wfQ hf.wfP hm (consts_wf hf.wfObs) hr w
  obtain ⟨p1, p2⟩ := h.family.posQ t w
  have e : ((v t).vLogProbs.map Prod.snd).sum w = ((v t).vLogProbs.map (fun p => p.2 w)).sum := by
    rw [list_sum_apply, List.map_map]
    rfl
  rw [e] at h2
  have := ereal_sum_toReal ((v t).vLogProbs.map (fun p => p.2 w)) (by rw [h2]; simpa using p1)
    (by rw [h2]; simpa using p2)
  rw [h2, log_toReal] at this
  rw [logQ, this, List.map_map]
  rfl

theorem Training.elbo_real (h : Training μ Q P obs dr l v θ sample logJoint lps) (t : ℝ) (w : ℕ → X) :
    (elbo (l t) (v t) w).toReal = logP (Q t) (P t) obs dr w - logQ (Q t) w := by
  obtain ⟨mq, m, q', hm, hr⟩ := h.ran t
  have hf := h.family.fits t
  obtain ⟨p1, p2⟩ := h.family.posQ t w
  obtain ⟨p3, p4⟩ := h.family.posP t w
  rw [C70_elbo_value hf.wfQ hf.wfP hm (consts_wf hf.wfObs) hr w, EReal.toReal_sub (by simpa using p4)
    (by simpa using p3) (by simpa using p2) (by simpa using p1), log_toReal, log_toReal, logP, logQ]

theorem Training.joint_tracks (h : Training μ Q P obs dr l v θ sample logJoint lps) (e : E) :
    Tracks (fun t => logP (Q t) (P t) obs dr (sample t e)) θ (logJoint e) := by
  have := h.holds.joint e
  simpa only [h.joint_real] using this

/-- The entropy term that the estimators use is minus the log density of the variational program, with its
gradient. -/
theorem Training.entropy_tracks (h : Training μ Q P obs dr l v θ sample logJoint lps) :
    ∃ g, entropyDual lps = some g ∧ ∀ e, Tracks (fun t => logQ (Q t) (sample t e)) θ (-(g e)) := by
  have hlen : 0 < lps.length := by
    obtain ⟨mq, m, q', hm, hr⟩ := h.ran θ
    rw [← h.holds.len θ, ran_length (h.family.fits θ).wfQ hr]
    exact List.length_pos_iff.2 h.latent
  refine ⟨_, by rw [entropyDual, if_pos hlen], fun e => ?_⟩
  have hs : ∀ t, logQ (Q t) (sample t e) = ∑ i ∈ Finset.range lps.length,
      (((v t).vLogProbs.map Prod.snd).getD i (fun _ => 0) (sample t e)).toReal := by
    intro t
    rw [← h.prob_real t, sum_getD, List.length_map, h.holds.len t]
    refine Finset.sum_congr rfl fun i _ => ?_
    simp only [List.getD_eq_getElem?_getD, List.getElem?_map]
    cases (v t).vLogProbs[i]? <;> simp
  have hd : ∀ f : Dual → ℝ, f (Dual.const 0) = 0 →
      ((lps.map (fun p => p.2 e)).map f).sum = ∑ i ∈ Finset.range lps.length,
        f ((lps.map Prod.snd).getD i (fun _ => Dual.const 0) e) := by
    intro f hf
    rw [sum_getD]
    simp only [List.length_map]
    refine Finset.sum_congr rfl fun i _ => ?_
    simp only [List.getD_eq_getElem?_getD, List.getElem?_map]
    cases lps[i]? <;> simp [hf]
  have hn : -(-dualSum (lps.map (fun p => p.2 e))) = dualSum (lps.map (fun p => p.2 e)) :=
    Dual.ext (by simp) (by simp)
  simp only [hn]
  rw [dualSum_eq]
  refine ⟨?_, ?_⟩
  · show ((lps.map (fun p => p.2 e)).map Dual.val).sum = _
    rw [hd Dual.val rfl]
    simp only [hs]
    exact Finset.sum_congr rfl fun i _ => (h.holds.prob i e).1
  · show HasDerivAt _ ((lps.map (fun p => p.2 e)).map Dual.der).sum θ
    rw [hd Dual.der rfl]
    simp only [hs]
    exact HasDerivAt.fun_sum fun i _ => (h.holds.prob i e).2

theorem Training.law_eq (h : Training μ Q P obs dr l v θ sample logJoint lps) (w0 : ℕ → X) (t : ℝ) :
    law (latentBase μ (Q θ) w0) (fun w => Real.exp (logQ (Q t) w)) = latentLaw μ (Q t) w0 := by
  rw [latentBase_congr (h.family.names θ t)]
  unfold law latentLaw latentBase
  congr 1
  funext w
  obtain ⟨p1, p2⟩ := h.family.posQ t w
  show ENNReal.ofReal (Real.exp (Real.log (jointDens (Q t) w).toReal)) = jointDens (Q t) w
  rw [Real.exp_log (ENNReal.toReal_pos p1 p2), ENNReal.ofReal_toReal p2]

theorem Training.samples_eq (h : Training μ Q P obs dr l v θ sample logJoint lps) (w0 : ℕ → X) (t : ℝ)
    (K : ℕ) : samples (latentBase μ (Q θ) w0) (fun w => Real.exp (logQ (Q t) w)) K =
      manySamples μ (Q t) w0 K := by
  rw [samples, manySamples, h.law_eq]

theorem Training.tensor_elbo (h : Training μ Q P obs dr l v θ sample logJoint lps) (t : ℝ) {K : ℕ}
    (ω : Fin (K + 1) → ℕ → X) : elboTensor (l t) (v t) ω =
      (elboObjective (fun k => Dual.const (logP (Q t) (P t) obs dr (ω k)))
        (fun k => Dual.const (logQ (Q t) (ω k)))).val := by
  simp only [elboTensor, elboObjective, reduceMean_val, h.elbo_real]
  simp [Grad.entropyTerm, sub_eq_add_neg]

theorem Training.tensor_iw (h : Training μ Q P obs dr l v θ sample logJoint lps) (t : ℝ) {a K : ℕ}
    {T : (Fin (K + 1) → ℕ → X) → ℝ} (hT : iwTensor (some a) (l t) (v t) = .ok T)
    (ω : Fin (K + 1) → ℕ → X) : T ω =
      (iwObjective (fun k => Dual.const (logP (Q t) (P t) obs dr (ω k)))
        (fun k => Dual.const (logQ (Q t) (ω k)))).val := by
  obtain ⟨mq, m, q', hm, hr⟩ := h.ran t
  have hne : Q t ≠ [] := by
    intro hc
    have := h.family.names t θ
    rw [hc] at this
    exact h.latent (List.map_eq_nil_iff.1 this.symm)
  obtain ⟨T', h1, _, h3⟩ := C80_value (h.family.fits t).wfQ hr hne a K
  rw [h1] at hT
  cases hT
  rw [h3, iwObjective_val, LME]
  simp only [h.elbo_real, val_const]

end

/-! ### Samples that carry no gradient -/

section
variable {X : Type} [MeasurableSpace X] {μ : Name → Measure X} {Q P : ℝ → List (Decl X)}
  {obs : Dict Name X} {dr : ℕ → (ℕ → X) → X} {l : ℝ → (ℕ → X) → EReal}
  {v : ℝ → VObj X ((ℕ → X) → EReal)} {θ : ℝ} {logJoint : (ℕ → X) → Dual}
  {lps : List (Name × ((ℕ → X) → Dual))} {lp' lq' : (ℕ → X) → ℝ}

/-- **C81.** For any two nets whose densities depend on a parameter, the expected gradient of the `reinforce`
cost that the objective builds from them is the gradient of minus the expected elbo that it reports. -/
theorem C81_reinforce (h : Training μ Q P obs dr l v θ (fun _ w => w) logJoint lps) (w0 : ℕ → X)
    (hR : ElboFamily (latentBase μ (Q θ) w0) (fun t => logP (Q t) (P t) obs dr) (fun t => logQ (Q t))
      lp' lq' θ) {K : ℕ} (vr : Bool) (mm : Dual) (b : Fin (K + 1) → Option ((Fin K → ℕ → X) → Dual))
    (hb : ∀ k g, b k = some g → Integrable (fun w => (g w).val) (manySamples μ (Q θ) w0 K))
    {c : (Fin (K + 1) → ℕ → X) → Dual}
    (hc : reinforceNet vr (fun ω k => (b k).map fun g => g fun i => ω (k.succAbove i)) mm logJoint lps =
      .ok c) :
    HasDerivAt (fun t => -∫ ω, elboTensor (K := K) (l t) (v t) ω ∂(manySamples μ (Q t) w0 (K + 1)))
      (∫ ω, (c ω).der ∂(manySamples μ (Q θ) w0 (K + 1))) θ := by
  obtain ⟨g, hg, hg'⟩ := h.entropy_tracks
  rw [reinforceNet, hg] at hc
  cases hc
  have := C42_unbiased (K := K) hR vr mm b (by rw [h.samples_eq]; exact hb)
  simp only [h.samples_eq] at this
  simp only [h.tensor_elbo]
  have e1 : ∀ w, logJoint w = ⟨logP (Q θ) (P θ) obs dr w, lp' w⟩ := fun w =>
    Dual.ext (h.joint_tracks w).1 ((h.joint_tracks w).2.unique (hR.dp w))
  have e2 : ∀ w, -(g w) = ⟨logQ (Q θ) w, lq' w⟩ := fun w =>
    Dual.ext (hg' w).1 ((hg' w).2.unique (hR.dq w))
  simp only [e1, e2]
  exact this

/-- **C81.** The same for `vimco` and the importance weighted objective, with at least two samples. -/
theorem C81_vimco (h : Training μ Q P obs dr l v θ (fun _ w => w) logJoint lps) (w0 : ℕ → X) {K : ℕ}
    (hR : IwFamily (latentBase μ (Q θ) w0) (fun t => logP (Q t) (P t) obs dr) (fun t => logQ (Q t))
      lp' lq' θ K) {a : ℕ} (T : ℝ → (Fin (K + 2) → ℕ → X) → ℝ)
    (hT : ∀ t, iwTensor (some a) (l t) (v t) = .ok (T t)) {c : (Fin (K + 2) → ℕ → X) → Dual}
    (hc : vimcoNet (some a) logJoint lps = .ok c) :
    HasDerivAt (fun t => -∫ ω, T t ω ∂(manySamples μ (Q t) w0 (K + 2)))
      (∫ ω, (c ω).der ∂(manySamples μ (Q θ) w0 (K + 2))) θ := by
  obtain ⟨g, hg, hg'⟩ := h.entropy_tracks
  have hv : vimcoCheck (some (K + 1 + 1)) (K + 1 + 1) = .ok := by simp [vimcoCheck]
  simp only [vimcoNet, hg, hv] at hc
  cases hc
  have := C44_unbiased hR
  simp only [h.samples_eq] at this
  have e1 : ∀ w, logJoint w = ⟨logP (Q θ) (P θ) obs dr w, lp' w⟩ := fun w =>
    Dual.ext (h.joint_tracks w).1 ((h.joint_tracks w).2.unique (hR.dp w))
  have e2 : ∀ w, -(g w) = ⟨logQ (Q θ) w, lq' w⟩ := fun w =>
    Dual.ext (hg' w).1 ((hg' w).2.unique (hR.dq w))
  simp only [fun t ω => h.tensor_iw t (hT t) ω, e1, e2]
  exact this

end

/-! ### The self-normalised importance estimator -/

section
variable {X : Type} [MeasurableSpace X] {μ : Name → Measure X} [∀ n, SigmaFinite (μ n)]
  {Q P : ℝ → List (Decl X)}
  {obs : Dict Name X} {dr : ℕ → (ℕ → X) → X} {l : ℝ → (ℕ → X) → EReal}
  {v : ℝ → VObj X ((ℕ → X) → EReal)} {θ : ℝ} {logJoint : (ℕ → X) → Dual}
  {lps : List (Name × ((ℕ → X) → Dual))} {lq' : (ℕ → X) → ℝ}

theorem importanceCost_der_congr {K : ℕ} (a b a' b' : Fin (K + 1) → Dual)
    (h1 : ∀ k, (a k).val - (b k).val = (a' k).val - (b' k).val) (h2 : ∀ k, (b k).der = (b' k).der) :
    (importanceCost a b).der = (importanceCost a' b').der := by
  have hm : (reduceMax fun k => a k + Grad.entropyTerm (b k)).val =
      (reduceMax fun k => a' k + Grad.entropyTerm (b' k)).val := by
    simp only [reduceMax, Grad.entropyTerm, val_add, val_neg, ← sub_eq_add_neg, h1]
  have hw : ∀ k, (importanceWeight a b k).val = (importanceWeight a' b' k).val := by
    intro k
    simp only [importanceWeight, val_stop, val_div, val_exp, val_sub, reduceSum_val, hm]
    simp only [val_add, Grad.entropyTerm, val_neg, ← sub_eq_add_neg, h1]
  have hd : ∀ k, (importanceWeight a b k).der = 0 ∧ (importanceWeight a' b' k).der = 0 := fun k =>
    ⟨by simp [importanceWeight], by simp [importanceWeight]⟩
  simp only [importanceCost, reduceSum_der, der_mul, Grad.entropyTerm, der_neg, hw, h2, hd, zero_mul]

theorem Training.posterior_eq (h : Training μ Q P obs dr l v θ (fun _ w => w) logJoint lps) (w0 : ℕ → X)
    (x0 : X) (hfin : evidence μ (P θ) obs x0 ≠ ⊤) :
    LatentModel (latentLaw μ (Q θ) w0) (fun w => Real.exp (elbo (l θ) (v θ) w).toReal) (fun _ => 1) ∧
    law (latentLaw μ (Q θ) w0) (fun _ => 1) = latentLaw μ (Q θ) w0 ∧
    Grad.posterior (latentLaw μ (Q θ) w0) (fun w => Real.exp (elbo (l θ) (v θ) w).toReal) =
      netPosterior μ (Q θ) (P θ) obs dr w0 x0 := by
  obtain ⟨mq, m, q', hm, hr⟩ := h.ran θ
  have hf := h.family.fits θ
  have hbot : ∀ w, elbo (l θ) (v θ) w ≠ ⊥ := by
    intro w hc
    have e := C70_elbo_value hf.wfQ hf.wfP hm (consts_wf hf.wfObs) hr w
    rw [hc] at e
    have e' := congrArg EReal.exp e
    rw [exp_sub_log, EReal.exp_bot] at e'
    obtain ⟨p1, p2⟩ := h.family.posQ θ w
    obtain ⟨p3, p4⟩ := h.family.posP θ w
    rcases mul_eq_zero.1 e'.symm with h0 | h0
    · exact p3 h0
    · exact p2 (ENNReal.inv_eq_zero.1 h0)
  obtain ⟨hM, hl, hE⟩ := weight_model hf hm hr w0 x0 hfin (Filter.Eventually.of_forall hbot)
  have hw := (C70_weight μ hf.wfQ hf.wfP hm hf.wfObs hf.covers hf.draws hf.measQ hf.measP hf.norm hr w0 x0).2
    (fun w hw => absurd hw (h.family.posQ θ w).1)
  rw [← hE] at hw
  refine ⟨hM, hl, ?_⟩
  have hQm := jointDens_measurable (Q θ) hf.measQ
  have hg : Measurable (fun w => ENNReal.ofReal (Real.exp (elbo (l θ) (v θ) w).toReal /
      Grad.evidence (latentLaw μ (Q θ) w0) (fun w => Real.exp (elbo (l θ) (v θ) w).toReal))) :=
    (hM.p_meas.div_const _).ennreal_ofReal
  unfold Grad.posterior netPosterior
  have hll : latentLaw μ (Q θ) w0 = (latentBase μ (Q θ) w0).withDensity (jointDens (Q θ)) := rfl
  conv_lhs => rw [show latentLaw μ (Q θ) w0 = (latentBase μ (Q θ) w0).withDensity (jointDens (Q θ)) from rfl]
  rw [← withDensity_mul _ hQm (by simpa only [hll] using hg)]
  congr 1
  funext w
  obtain ⟨p1, p2⟩ := h.family.posQ θ w
  obtain ⟨p3, p4⟩ := h.family.posP θ w
  rw [Pi.mul_apply, ENNReal.ofReal_div_of_pos (by rw [← hll]; exact hM.evidence_pos), ← hll, hw]
  show jointDens (Q θ) w * (ENNReal.ofReal (Real.exp (elbo (l θ) (v θ) w).toReal) / _) = _
  rw [h.elbo_real, Real.exp_sub, logP, logQ, Real.exp_log (ENNReal.toReal_pos p1 p2), Real.exp_log (ENNReal.toReal_pos p3 p4),
    ENNReal.ofReal_div_of_pos (ENNReal.toReal_pos p1 p2), ENNReal.ofReal_toReal p2, ENNReal.ofReal_toReal p4,
    ← mul_div_assoc, ENNReal.mul_div_cancel p1 p2]

/-- **C81.** On any two nets with positive densities, the gradient of the `importance` cost converges almost
surely, as the number of samples grows, to the posterior expectation of `-∂ log q`, the posterior being that of
the model program given the observations. -/
theorem C81_importance (h : Training μ Q P obs dr l v θ (fun _ w => w) logJoint lps) (w0 : ℕ → X)
    (x0 : X) (hfin : evidence μ (P θ) obs x0 ≠ ⊤)
    (hq : ∀ w, HasDerivAt (fun t => logQ (Q t) w) (lq' w) θ) (hmeas : Measurable lq')
    (hint : Integrable lq' (netPosterior μ (Q θ) (P θ) obs dr w0 x0)) (a : ℕ)
    (c : (K : ℕ) → (Fin (K + 1) → ℕ → X) → Dual) (hc : ∀ K, importanceNet (some a) logJoint lps = .ok (c K))
    {Ω : Type*} [MeasurableSpace Ω] {Pr : Measure Ω} (S : ℕ → Ω → ℕ → X) (hS : ∀ i, Measurable (S i))
    (hind : Pairwise fun i j => ProbabilityTheory.IndepFun (S i) (S j) Pr)
    (hlaw : ∀ i, Pr.map (S i) = latentLaw μ (Q θ) w0) :
    ∀ᵐ ω ∂Pr, Filter.Tendsto (fun K : ℕ => (c K (fun k => S k ω)).der) Filter.atTop
      (nhds (∫ w, -lq' w ∂(netPosterior μ (Q θ) (P θ) obs dr w0 x0))) := by
  obtain ⟨g, hg, hg'⟩ := h.entropy_tracks
  obtain ⟨hM, hl, hpost⟩ := h.posterior_eq w0 x0 hfin
  have hi : Integrable (fun w => Real.exp (elbo (l θ) (v θ) w).toReal * lq' w) (latentLaw μ (Q θ) w0) := by
    rw [← hpost, Grad.posterior, integrable_withDensity_iff (hM.p_meas.div_const _).ennreal_ofReal
      (Filter.Eventually.of_forall fun _ => ENNReal.ofReal_lt_top)] at hint
    refine (hint.mul_const (Grad.evidence (latentLaw μ (Q θ) w0)
      (fun w => Real.exp (elbo (l θ) (v θ) w).toReal))).congr (Filter.Eventually.of_forall fun w => ?_)
    have := hM.evidence_pos
    simp only
    rw [ENNReal.toReal_ofReal (div_nonneg (Real.exp_pos _).le this.le)]
    field_simp
  have := C45_consistent (lpder := fun w => 0) (fun w => Real.exp_pos _) (fun _ => one_pos) hM hmeas hi S hS
    hind (fun i => by rw [hlaw i, hl])
  rw [hpost] at this
  filter_upwards [this] with ω hω
  refine hω.congr fun K => ?_
  have hcK := hc K
  rw [importanceNet, hg] at hcK
  rw [← Except.ok.inj hcK]
  refine importanceCost_der_congr _ _ _ _ (fun k => ?_) (fun k => ?_)
  · rw [(h.joint_tracks (S k ω)).1, (hg' (S k ω)).1]
    simp [h.elbo_real]
  · exact (hq (S k ω)).unique (hg' (S k ω)).2

end

/-! ### Reparameterised samples -/

section
variable {X E : Type} [MeasurableSpace X] [MeasurableSpace E] {μ : Name → Measure X} [∀ n, SigmaFinite (μ n)]
  {Q P : ℝ → List (Decl X)}
  {obs : Dict Name X} {dr : ℕ → (ℕ → X) → X} {l : ℝ → (ℕ → X) → EReal}
  {v : ℝ → VObj X ((ℕ → X) → EReal)} {θ : ℝ} {sample : ℝ → E → ℕ → X} {logJoint : E → Dual}
  {lps : List (Name × (E → Dual))} {lp' lq' : ℝ → E → ℝ} {bound : E → ℝ} {ε : ℝ}
  {ν : Measure E} [IsProbabilityMeasure ν]

omit [MeasurableSpace E] [∀ n, SigmaFinite (μ n)] in
theorem Training.meas (h : Training μ Q P obs dr l v θ sample logJoint lps) (t : ℝ) :
    Measurable (logP (Q t) (P t) obs dr) ∧ Measurable (logQ (Q t)) := by
  have hf := h.family.fits t
  have h1 := jointDens_measurable (P t) hf.measP
  have h2 := modelVals_measurable (Q := Q t) (P := P t) obs hf.draws
  exact ⟨((h1.comp h2).ennreal_toReal).log, (jointDens_measurable (Q t) hf.measQ).ennreal_toReal.log⟩

/-- Expectations over the samples are expectations over the noise. -/
theorem Training.noise (h : Training μ Q P obs dr l v θ sample logJoint lps) (w0 : ℕ → X)
    (hs : ∀ t, Measurable (sample t)) (hlaw : ∀ t, ν.map (sample t) = latentLaw μ (Q t) w0) (t : ℝ) {K : ℕ}
    (f : (Fin K → ℕ → X) → ℝ) (hf : Measurable f) :
    ∫ ω, f ω ∂(manySamples μ (Q t) w0 K) =
      ∫ e : Fin K → E, f (fun k => sample t (e k)) ∂(Measure.pi fun _ => ν) := by
  have hft := h.family.fits t
  have hp := latentLaw_prob μ hft.wfQ hft.measQ hft.norm w0
  have e : manySamples μ (Q t) w0 K = (Measure.pi fun _ : Fin K => ν).map (fun e k => sample t (e k)) := by
    rw [manySamples, ← hlaw t]
    have : IsProbabilityMeasure (ν.map (sample t)) := by rw [hlaw t]; exact hp
    exact (Measure.pi_map_pi (fun _ => (hs t).aemeasurable)).symm
  have hm : Measurable (fun (e : Fin K → E) k => sample t (e k)) :=
    measurable_pi_lambda _ fun k => (hs t).comp (measurable_pi_apply k)
  rw [e, integral_map hm.aemeasurable hf.aestronglyMeasurable]

/-- **C81.** If the variational samples are reparameterised - functions of noise whose law is the law of the
variational program's samples, whatever the parameter - then the expected gradient of the `sgvb` cost of the
elbo is the gradient of minus the expected elbo. -/
theorem C81_sgvb (h : Training μ Q P obs dr l v θ sample logJoint lps) (w0 : ℕ → X)
    (hs : ∀ t, Measurable (sample t)) (hlaw : ∀ t, ν.map (sample t) = latentLaw μ (Q t) w0)
    (hR : Reparam ν sample (fun t => logP (Q t) (P t) obs dr) (fun t => logQ (Q t)) lp' lq' bound θ ε)
    (K : ℕ) :
    HasDerivAt (fun t => -∫ ω, elboTensor (K := K) (l t) (v t) ω ∂(manySamples μ (Q t) w0 (K + 1)))
      (∫ e : Fin (K + 1) → E, (elboSgvbCost logJoint lps e).der ∂(Measure.pi fun _ => ν)) θ := by
  obtain ⟨g, hg, hg'⟩ := h.entropy_tracks
  have hθ : θ ∈ Set.Ioo (θ - ε) (θ + ε) := ⟨by linarith [hR.pos], by linarith [hR.pos]⟩
  have e1 : ∀ e, logJoint e = ⟨logP (Q θ) (P θ) obs dr (sample θ e), lp' θ e⟩ := fun e =>
    Dual.ext (h.joint_tracks e).1 ((h.joint_tracks e).2.unique (hR.dp e θ hθ))
  have e2 : ∀ e, -(g e) = ⟨logQ (Q θ) (sample θ e), lq' θ e⟩ := fun e =>
    Dual.ext (hg' e).1 ((hg' e).2.unique (hR.dq e θ hθ))
  have hm : ∀ t, Measurable (fun ω : Fin (K + 1) → ℕ → X => elboTensor (l t) (v t) ω) := by
    intro t
    simp only [h.tensor_elbo, elboObjective_val, val_const]
    exact Measurable.div_const (Finset.measurable_sum _ fun k _ =>
      ((h.meas t).1.comp (measurable_pi_apply k)).sub ((h.meas t).2.comp (measurable_pi_apply k))) _
  have hn : ∀ t, ∫ ω, elboTensor (K := K) (l t) (v t) ω ∂(manySamples μ (Q t) w0 (K + 1)) = _ :=
    fun t => h.noise w0 hs hlaw t _ (hm t)
  simp only [hn]
  simp only [h.tensor_elbo, elboSgvbCost, hg, e1, e2]
  exact C41_elbo_unbiased hR K

/-- **C81.** The same for the importance weighted objective. -/
theorem C81_sgvb_iw (h : Training μ Q P obs dr l v θ sample logJoint lps) (w0 : ℕ → X)
    (hs : ∀ t, Measurable (sample t)) (hlaw : ∀ t, ν.map (sample t) = latentLaw μ (Q t) w0)
    (hR : Reparam ν sample (fun t => logP (Q t) (P t) obs dr) (fun t => logQ (Q t)) lp' lq' bound θ ε)
    {a K : ℕ} (T : ℝ → (Fin (K + 1) → ℕ → X) → ℝ)
    (hT : ∀ t, iwTensor (some a) (l t) (v t) = .ok (T t)) {c : (Fin (K + 1) → E) → Dual}
    (hc : iwSgvbNet (some a) logJoint lps = .ok c) :
    HasDerivAt (fun t => -∫ ω, T t ω ∂(manySamples μ (Q t) w0 (K + 1)))
      (∫ e : Fin (K + 1) → E, (c e).der ∂(Measure.pi fun _ => ν)) θ := by
  obtain ⟨g, hg, hg'⟩ := h.entropy_tracks
  simp only [iwSgvbNet, hg] at hc
  cases hc
  have hθ : θ ∈ Set.Ioo (θ - ε) (θ + ε) := ⟨by linarith [hR.pos], by linarith [hR.pos]⟩
  have e1 : ∀ e, logJoint e = ⟨logP (Q θ) (P θ) obs dr (sample θ e), lp' θ e⟩ := fun e =>
    Dual.ext (h.joint_tracks e).1 ((h.joint_tracks e).2.unique (hR.dp e θ hθ))
  have e2 : ∀ e, -(g e) = ⟨logQ (Q θ) (sample θ e), lq' θ e⟩ := fun e =>
    Dual.ext (hg' e).1 ((hg' e).2.unique (hR.dq e θ hθ))
  have hm : ∀ t, Measurable (T t) := by
    intro t
    have : T t = fun ω => Real.log ((∑ k, Real.exp (logP (Q t) (P t) obs dr (ω k) - logQ (Q t) (ω k))) /
        (K + 1 : ℕ)) := by
      funext ω
      rw [h.tensor_iw t (hT t), iwObjective_val, LME]
      simp
    rw [this]
    exact Measurable.log (Measurable.div_const (Finset.measurable_sum _ fun k _ =>
      (((h.meas t).1.comp (measurable_pi_apply k)).sub
        ((h.meas t).2.comp (measurable_pi_apply k))).exp) _)
  have hn : ∀ t, ∫ ω, T t ω ∂(manySamples μ (Q t) w0 (K + 1)) = _ :=
    fun t => h.noise w0 hs hlaw t _ (hm t)
  simp only [hn]
  simp only [fun t ω => h.tensor_iw t (hT t) ω, e1, e2]
  exact C41_iw_unbiased hR K

end

/-! ### Finite values need no regularity condition -/

section transport
variable {Z Z' : Type*} [MeasurableSpace Z] [MeasurableSpace Z']

theorem embedding_of_finite [Finite Z] [MeasurableSingletonClass Z] [MeasurableSingletonClass Z']
    {u : Z → Z'} (hu : Function.Injective u) : MeasurableEmbedding u where
  injective := hu
  measurable := measurable_of_finite u
  measurableSet_image' := fun s _ => ((Set.toFinite s).image u).measurableSet

theorem withDensity_map {u : Z → Z'} (hu : MeasurableEmbedding u) (μ : Measure Z) (f : Z' → ℝ≥0∞) :
    (μ.map u).withDensity f = (μ.withDensity (fun z => f (u z))).map u := by
  ext s hs
  rw [hu.map_apply, withDensity_apply _ hs, withDensity_apply _ (hu.measurable hs),
    hu.restrict_map, hu.lintegral_map]

theorem law_map {u : Z → Z'} (hu : MeasurableEmbedding u) (μ : Measure Z) (q : Z' → ℝ) :
    law (μ.map u) q = (law μ (fun z => q (u z))).map u := withDensity_map hu μ _

theorem scoreRegular_map {u : Z → Z'} (hu : MeasurableEmbedding u) {ν : ℝ → Measure Z} {s : Z' → ℝ}
    {F : ℝ → Z' → ℝ} {F' : Z' → ℝ} {θ : ℝ}
    (h : ScoreRegular ν (fun z => s (u z)) (fun t z => F t (u z)) (fun z => F' (u z)) θ) :
    ScoreRegular (fun t => (ν t).map u) s F F' θ := by
  refine ⟨hu.integrable_map_iff.2 h.int_sF, hu.integrable_map_iff.2 h.int_F', ?_⟩
  simp only [hu.integral_map]
  exact h.leibniz

theorem elboFamily_map {u : Z → Z'} (hu : MeasurableEmbedding u) {μ : Measure Z} {lp lq : ℝ → Z' → ℝ}
    {lp' lq' : Z' → ℝ} {θ : ℝ} (dp : ∀ z, HasDerivAt (fun t => lp t z) (lp' z) θ)
    (dq : ∀ z, HasDerivAt (fun t => lq t z) (lq' z) θ)
    (h : ElboFamily μ (fun t z => lp t (u z)) (fun t z => lq t (u z)) (fun z => lp' (u z))
      (fun z => lq' (u z)) θ) : ElboFamily (μ.map u) lp lq lp' lq' θ := by
  refine ⟨dp, dq, fun t => ?_, ?_, ?_, fun t => ?_⟩
  · rw [law_map hu]
    have := h.prob t
    exact Measure.isProbabilityMeasure_map hu.measurable.aemeasurable
  · simp only [law_map hu]
    exact scoreRegular_map hu h.score
  · simp only [law_map hu]
    exact scoreRegular_map hu h.elbo
  · rw [law_map hu]
    exact hu.integrable_map_iff.2 (h.elbo_int t)

theorem iwFamily_finite_map [Fintype Z] [MeasurableSingletonClass Z] [MeasurableSingletonClass Z']
    {u : Z → Z'} (hu : Function.Injective u) {lp lq : ℝ → Z' → ℝ}
    {lp' lq' : Z' → ℝ} {θ : ℝ} {K : ℕ} (dp : ∀ z, HasDerivAt (fun t => lp t z) (lp' z) θ)
    (dq : ∀ z, HasDerivAt (fun t => lq t z) (lq' z) θ) (h1 : ∀ t, ∑ z, Real.exp (lq t (u z)) = 1) :
    IwFamily ((Measure.count : Measure Z).map u) lp lq lp' lq' θ K := by
  have he := embedding_of_finite hu
  have hE := elboFamily_map he dp dq
    (elboFamily_finite (fun t z => lp t (u z)) (fun t z => lq t (u z)) (fun z => lp' (u z))
      (fun z => lq' (u z)) θ (fun z => dp (u z)) (fun z => dq (u z)) h1)
  have hp : ∀ t, IsProbabilityMeasure (law (Measure.count : Measure Z) fun z => Real.exp (lq t (u z))) :=
    fun t => isProb_count _ (fun z => (Real.exp_pos _).le) (h1 t)
  have hU : MeasurableEmbedding (fun (z : Fin (K + 2) → Z) k => u (z k)) :=
    embedding_of_finite fun a b hab => funext fun k => hu (congrFun hab k)
  have hs : ∀ t, samples ((Measure.count : Measure Z).map u) (fun z => Real.exp (lq t z)) (K + 2) =
      (samples (Measure.count : Measure Z) (fun z => Real.exp (lq t (u z))) (K + 2)).map
        (fun z k => u (z k)) := by
    intro t
    rw [samples, samples, law_map he]
    exact (Measure.pi_map_pi (fun _ => he.measurable.aemeasurable)).symm
  refine ⟨dp, dq, hE.prob, hE.score, ?_, fun j => ?_⟩
  · simp only [hs]
    exact scoreRegular_map hU (scoreRegular_finite (fun t z => lq t (u z)) (fun z => lq' (u z)) θ
      (fun z => dq (u z)) h1 _ _ fun z =>
        hasDerivAt_LME (fun t k => lp t (u (z k)) - lq t (u (z k))) (fun k => lp' (u (z k)) - lq' (u (z k))) θ
          fun k => (dp (u (z k))).sub (dq (u (z k))))
  · rw [hs]
    exact hU.integrable_map_iff.2 Integrable.of_finite

end transport

section
variable {X : Type} [Fintype X] [MeasurableSpace X] [MeasurableSingletonClass X]
  {Q P : ℝ → List (Decl X)}
  {obs : Dict Name X} {dr : ℕ → (ℕ → X) → X} {l : ℝ → (ℕ → X) → EReal}
  {v : ℝ → VObj X ((ℕ → X) → EReal)} {θ : ℝ} {logJoint : (ℕ → X) → Dual}
  {lps : List (Name × ((ℕ → X) → Dual))}

theorem latentBase_count (Q : List (Decl X)) (w0 : ℕ → X) :
    latentBase (fun _ => Measure.count) Q w0 =
      (Measure.count : Measure (Finset.range Q.length → X)).map
        (Function.updateFinset w0 (Finset.range Q.length)) := by
  unfold latentBase
  congr 1
  refine Measure.ext_of_singleton fun z => ?_
  rw [Measure.pi_singleton, Measure.count_singleton]
  refine Finset.prod_eq_one fun i _ => ?_
  have hi : (i : ℕ) < Q.length := Finset.mem_range.1 i.2
  simp [baseOf, List.getElem?_eq_getElem hi]

theorem place_injective (w0 : ℕ → X) (s : Finset ℕ) :
    Function.Injective (Function.updateFinset (π := fun _ => X) w0 s) := by
  intro a b hab
  funext i
  have := congrFun hab i
  simpa [Function.updateFinset, i.2] using this

theorem Training.sum_one (h : Training (fun _ => Measure.count) Q P obs dr l v θ (fun _ w => w) logJoint lps)
    (w0 : ℕ → X) (t : ℝ) :
    ∑ z : Finset.range (Q θ).length → X,
      Real.exp (logQ (Q t) (Function.updateFinset w0 (Finset.range (Q θ).length) z)) = 1 := by
  have hf := h.family.fits t
  have hp := latentLaw_prob (fun _ => Measure.count) hf.wfQ hf.measQ hf.norm w0
  rw [← h.law_eq, latentBase_count, law_map (embedding_of_finite (place_injective w0 _))] at hp
  have h1 := hp.measure_univ
  rw [(embedding_of_finite (place_injective w0 _)).map_apply, Set.preimage_univ, law,
    withDensity_apply _ MeasurableSet.univ, Measure.restrict_univ, lintegral_count,
    tsum_fintype, ← ENNReal.ofReal_sum_of_nonneg fun z _ => (Real.exp_pos _).le] at h1
  rwa [ENNReal.ofReal_eq_one] at h1

/-- Every function of finitely many samples is integrable. -/
theorem Training.integrable_finite
    (h : Training (fun _ => Measure.count) Q P obs dr l v θ (fun _ w => w) logJoint lps) (w0 : ℕ → X)
    {K : ℕ} (f : (Fin K → ℕ → X) → ℝ) :
    Integrable f (manySamples (fun _ => Measure.count) (Q θ) w0 K) := by
  have he := embedding_of_finite (place_injective w0 (Finset.range (Q θ).length))
  have hU : MeasurableEmbedding (fun (z : Fin K → Finset.range (Q θ).length → X) k =>
      Function.updateFinset w0 (Finset.range (Q θ).length) (z k)) :=
    embedding_of_finite fun a b hab => funext fun k => place_injective w0 _ (congrFun hab k)
  have hp := isProb_count _ (fun z => (Real.exp_pos _).le) (h.sum_one w0 θ)
  have hs : manySamples (fun _ => Measure.count) (Q θ) w0 K =
      (samples (Measure.count : Measure (Finset.range (Q θ).length → X)) (fun z => Real.exp (logQ (Q θ)
        (Function.updateFinset w0 (Finset.range (Q θ).length) z))) K).map (fun z k =>
          Function.updateFinset w0 (Finset.range (Q θ).length) (z k)) := by
    rw [← h.samples_eq, latentBase_count, samples, samples, law_map he]
    exact (Measure.pi_map_pi (fun _ => he.measurable.aemeasurable)).symm
  rw [hs]
  exact hU.integrable_map_iff.2 Integrable.of_finite

/-- **C81.** With finitely many values per node, `reinforce` is unbiased on any two nets with positive
probabilities that are differentiable in the parameter, for every number of samples, every moving mean and
every baseline that depends on the other samples only. -/
theorem C81_reinforce_finite
    (h : Training (fun _ => Measure.count) Q P obs dr l v θ (fun _ w => w) logJoint lps) (w0 : ℕ → X)
    {K : ℕ} (vr : Bool) (mm : Dual) (b : Fin (K + 1) → Option ((Fin K → ℕ → X) → Dual)) :
    ∃ c, reinforceNet vr (fun ω k => (b k).map fun g => g fun i => ω (k.succAbove i)) mm logJoint lps =
        .ok c ∧
      HasDerivAt (fun t => -∫ ω, elboTensor (K := K) (l t) (v t) ω
          ∂(manySamples (fun _ => Measure.count) (Q t) w0 (K + 1)))
        (∫ ω, (c ω).der ∂(manySamples (fun _ => Measure.count) (Q θ) w0 (K + 1))) θ := by
  obtain ⟨g, hg, hg'⟩ := h.entropy_tracks
  refine ⟨_, by rw [reinforceNet, hg], ?_⟩
  refine C81_reinforce (lp' := fun w => (logJoint w).der) (lq' := fun w => (-(g w)).der) h w0 ?_ vr mm b
    (fun k g _ => h.integrable_finite w0 _) (by rw [reinforceNet, hg])
  rw [latentBase_count]
  exact elboFamily_map (embedding_of_finite (place_injective w0 _)) (fun w => (h.joint_tracks w).2)
    (fun w => (hg' w).2) (elboFamily_finite _ _ _ _ θ (fun z => (h.joint_tracks _).2)
      (fun z => (hg' _).2) (fun t => h.sum_one w0 t))

/-- **C81.** The same for `vimco` with at least two samples. -/
theorem C81_vimco_finite
    (h : Training (fun _ => Measure.count) Q P obs dr l v θ (fun _ w => w) logJoint lps) (w0 : ℕ → X)
    (a K : ℕ) :
    ∃ (T : ℝ → (Fin (K + 2) → ℕ → X) → ℝ) (c : (Fin (K + 2) → ℕ → X) → Dual),
      (∀ t, iwTensor (some a) (l t) (v t) = .ok (T t)) ∧ vimcoNet (some a) logJoint lps = .ok c ∧
      HasDerivAt (fun t => -∫ ω, T t ω ∂(manySamples (fun _ => Measure.count) (Q t) w0 (K + 2)))
        (∫ ω, (c ω).der ∂(manySamples (fun _ => Measure.count) (Q θ) w0 (K + 2))) θ := by
  obtain ⟨g, hg, hg'⟩ := h.entropy_tracks
  have hT : ∀ t, ∃ T : (Fin (K + 2) → ℕ → X) → ℝ, iwTensor (some a) (l t) (v t) = .ok T := by
    intro t
    obtain ⟨mq, m, q', hm, hr⟩ := h.ran t
    have hne : Q t ≠ [] := by
      intro hc
      have := h.family.names t θ
      rw [hc] at this
      exact h.latent (List.map_eq_nil_iff.1 this.symm)
    obtain ⟨T', h1, _⟩ := C80_value (h.family.fits t).wfQ hr hne a (K + 1)
    exact ⟨T', h1⟩
  choose T hT using hT
  have hv : vimcoCheck (some (K + 1 + 1)) (K + 1 + 1) = .ok := by simp [vimcoCheck]
  have hc : vimcoNet (K := K + 1) (some a) logJoint lps =
      .ok (fun ω => vimcoCost (fun k => logJoint (ω k)) (fun k => -g (ω k))) := by
    simp only [vimcoNet, hg, hv]
  refine ⟨T, _, hT, hc, ?_⟩
  refine C81_vimco (lp' := fun w => (logJoint w).der) (lq' := fun w => (-(g w)).der) h w0 ?_ T hT hc
  rw [latentBase_count]
  exact iwFamily_finite_map (place_injective w0 _) (fun w => (h.joint_tracks w).2)
    (fun w => (hg' w).2) (fun t => h.sum_one w0 t)

end

section
variable {X : Type} [Fintype X] [MeasurableSpace X] [MeasurableSingletonClass X]
  {Q P : ℝ → List (Decl X)}
  {obs : Dict Name X} {dr : ℕ → (ℕ → X) → X} {l : ℝ → (ℕ → X) → EReal}
  {v : ℝ → VObj X ((ℕ → X) → EReal)} {θ : ℝ} {logJoint : (ℕ → X) → Dual}
  {lps : List (Name × ((ℕ → X) → Dual))}

/-- **C81.** With finitely many values per node, the gradient of the `importance` cost converges almost surely to
the gradient of the inclusive Kullback-Leibler divergence, from the posterior of the model program given the
observations (at the current parameter) to the variational program. -/
theorem C81_importance_finite
    (h : Training (fun _ => Measure.count) Q P obs dr l v θ (fun _ w => w) logJoint lps) (w0 : ℕ → X)
    (x0 : X) (hfin : evidence (fun _ => Measure.count) (P θ) obs x0 ≠ ⊤) (a : ℕ)
    {Ω : Type*} [MeasurableSpace Ω] {Pr : Measure Ω} (S : ℕ → Ω → ℕ → X) (hS : ∀ i, Measurable (S i))
    (hind : Pairwise fun i j => ProbabilityTheory.IndepFun (S i) (S j) Pr)
    (hlaw : ∀ i, Pr.map (S i) = latentLaw (fun _ => Measure.count) (Q θ) w0) :
    ∃ (c : (K : ℕ) → (Fin (K + 1) → ℕ → X) → Dual) (D : ℝ),
      (∀ K, importanceNet (some a) logJoint lps = .ok (c K)) ∧
      HasDerivAt (fun t => netKL (fun _ => Measure.count) (Q θ) (P θ) (Q t) obs dr w0 x0) D θ ∧
      ∀ᵐ ω ∂Pr, Filter.Tendsto (fun K : ℕ => (c K (fun k => S k ω)).der) Filter.atTop (nhds D) := by
  obtain ⟨g, hg, hg'⟩ := h.entropy_tracks
  obtain ⟨hM, hl, hpost⟩ := h.posterior_eq w0 x0 hfin
  have hprob := hM.isProb_posterior
  rw [hpost] at hprob
  have hu := embedding_of_finite (place_injective w0 (Finset.range (Q θ).length))
  set ν := (Measure.count : Measure (Finset.range (Q θ).length → X)).withDensity (fun z =>
    jointDens (P θ) (modelVals (consts obs) (Q θ) (P θ) dr
      (Function.updateFinset w0 (Finset.range (Q θ).length) z)) /
        evidence (fun _ => Measure.count) (P θ) obs x0)
  have hmap : netPosterior (fun _ => Measure.count) (Q θ) (P θ) obs dr w0 x0 =
      ν.map (Function.updateFinset w0 (Finset.range (Q θ).length)) := by
    rw [netPosterior, latentBase_count, withDensity_map hu]
  have hνf : IsFiniteMeasure ν := by
    refine ⟨?_⟩
    have := hprob.measure_univ
    rw [hmap, hu.map_apply, Set.preimage_univ] at this
    rw [this]
    exact ENNReal.one_lt_top
  -- the derivative of the log density depends on the used places only
  have hlen : ∀ t, (Q t).length = (Q θ).length := fun t => by
    simpa using congrArg List.length (h.family.names t θ)
  have hplace : ∀ w, (-(g w)).der = (-(g (Function.updateFinset w0 (Finset.range (Q θ).length)
      (fun i => w i)))).der := by
    intro w
    refine (hg' w).2.unique ?_
    have e : ∀ t, logQ (Q t) w = logQ (Q t) (Function.updateFinset w0 (Finset.range (Q θ).length)
        (fun i => w i)) := by
      intro t
      rw [logQ, logQ, jointDens_congr (h.family.fits t).wfQ fun i hi => ?_]
      rw [hlen t] at hi
      simp [Function.updateFinset, hi]
    simp only [e]
    exact (hg' _).2
  have hmeas : Measurable (fun w => (-(g w)).der) := by
    have : (fun w => (-(g w)).der) = (fun z => (-(g (Function.updateFinset w0
        (Finset.range (Q θ).length) z))).der) ∘ (fun w (i : Finset.range (Q θ).length) => w i) := by
      funext w
      exact hplace w
    rw [this]
    exact (measurable_of_finite _).comp (measurable_pi_lambda _ fun i => measurable_pi_apply _)
  have hc : ∀ K, importanceNet (K := K) (some a) logJoint lps =
      .ok (fun ω => importanceCost (fun k => logJoint (ω k)) (fun k => -g (ω k))) := fun K => by
    rw [importanceNet, hg]
  refine ⟨_, _, hc, ?_, C81_importance h w0 x0 hfin (fun w => (hg' w).2) hmeas
    (by rw [hmap]; exact hu.integrable_map_iff.2 Integrable.of_finite) a _ hc S hS hind hlaw⟩
  simp only [netKL, hmap, hu.integral_map]
  simp only [integral_fintype Integrable.of_finite, smul_eq_mul]
  refine HasDerivAt.fun_sum fun z _ => HasDerivAt.const_mul _ ?_
  exact ((hg' _).2.const_sub _)

end

/-! ### No latent variables, no sample axis, one sample -/

/-- **C81.** Without latent variables every estimator except the elbo's `sgvb` is refused, and that one is minus
the mean of the log joint; without a sample axis the importance weighted estimators are refused; `vimco` is
refused for one sample; and `importance` without a sample axis is the plain `-log q`. -/
theorem C81_refused {W : Type} (logJoint : W → Dual) (lps : List (Name × (W → Dual))) (K : ℕ) (a : Option ℕ)
    (vr : Bool) (b : (Fin (K + 1) → W) → Fin (K + 1) → Option Dual) (mm : Dual) :
    (lps = [] → reinforceNet vr b mm logJoint lps = .error .valueError ∧
      iwSgvbNet (K := K) a logJoint lps = .error .valueError ∧
      vimcoNet (K := K) a logJoint lps = .error .valueError ∧
      importanceNet (K := K) a logJoint lps = .error .valueError ∧
      ∀ ω : Fin (K + 1) → W, (elboSgvbCost logJoint lps ω).val = -((∑ k, (logJoint (ω k)).val) / (K + 1 : ℕ))) ∧
    iwSgvbNet (K := K) none logJoint lps = .error .valueError ∧
    vimcoNet (K := K) none logJoint lps = .error .valueError ∧
    vimcoNet (K := 0) a logJoint lps = .error .valueError ∧
    (∀ n f, lps = [(n, f)] → ∃ c, importanceNet (K := K) none logJoint lps = .ok c ∧
      ∀ ω, (c ω).val = -(f (ω 0)).val ∧ (c ω).der = -(f (ω 0)).der) := by
  refine ⟨fun h => ?_, rfl, rfl, ?_, ?_⟩
  · subst h
    refine ⟨by simp [reinforceNet, entropyDual], ?_, ?_, by simp [importanceNet, entropyDual], fun ω => ?_⟩
    · cases a <;> simp [iwSgvbNet, entropyDual]
    · cases a <;> simp [vimcoNet, entropyDual]
    · simp [elboSgvbCost, entropyDual, reduceMean_val]
  · cases a
    · rfl
    · simp only [vimcoNet]
      cases entropyDual lps <;> simp [vimcoCheck]
  · rintro n f rfl
    refine ⟨_, by simp [importanceNet, entropyDual]; rfl, fun ω => ?_⟩
    simp [dualSum_eq]

/-! ### Concrete training graphs -/

/-- The code builds the training graph of any family of two programs with one variational node. -/
theorem training_one {X E : Type} [MeasurableSpace X] {μ : Name → Measure X} {Q P : ℝ → List (Decl X)}
    {obs : Dict Name X} {dr : ℕ → (ℕ → X) → X} (hF : Family μ Q P obs dr) (d : ℝ → Decl X)
    (hQ : ∀ t, Q t = [d t]) (θ : ℝ) (sample : ℝ → E → ℕ → X) (lp' lq' : E → ℝ)
    (hp : ∀ e, HasDerivAt (fun t => logP (Q t) (P t) obs dr (sample t e)) (lp' e) θ)
    (hq : ∀ e, HasDerivAt (fun t => logQ (Q t) (sample t e)) (lq' e) θ) (n : Name) :
    ∃ l v, Training μ Q P obs dr l v θ sample
      (fun e => ⟨logP (Q θ) (P θ) obs dr (sample θ e), lp' e⟩)
      [(n, fun e => ⟨logQ (Q θ) (sample θ e), lq' e⟩)] := by
  choose v q' l hr using fun t => C70_runs (Q t) (P t) (hF.fits t).wfQ (hF.fits t).wfP none (some .unset)
    (Or.inr rfl) (consts obs) dr
  have hT := fun t w => C70_terms (hF.fits t).wfQ (hF.fits t).wfP (Or.inr rfl)
    (consts_wf (hF.fits t).wfObs) (hr t) w
  have hone : ∀ t, ∃ p, (v t).vLogProbs = [p] ∧ ∀ w, (p.2 w).toReal = logQ (Q t) w := by
    intro t
    have hl : (v t).vLogProbs.length = 1 := by
      rw [ran_length (hF.fits t).wfQ (hr t), hQ t]
      rfl
    obtain ⟨p, hp⟩ := List.length_eq_one_iff.1 hl
    refine ⟨p, hp, fun w => ?_⟩
    have := (hT t w).2.1
    rw [hp] at this
    simp only [List.map_cons, List.map_nil, List.sum_cons, List.sum_nil, add_zero] at this
    rw [this, log_toReal, logQ]
  choose p hp1 hp2 using hone
  refine ⟨l, v, hF, fun t => ⟨none, some .unset, q' t, Or.inr rfl, hr t⟩, by simp [hQ], ?_, ?_, ?_⟩
  · intro e
    have : ∀ t w, (l t w).toReal = logP (Q t) (P t) obs dr w := fun t w => by
      rw [(hT t w).1, log_toReal, logP]
    simp only [this]
    exact ⟨rfl, hp e⟩
  · intro t
    rw [hp1]
    rfl
  · intro i e
    simp only [hp1]
    match i with
    | 0 =>
      simp only [List.map_cons, List.map_nil, List.getD_cons_zero, hp2]
      exact ⟨rfl, hq e⟩
    | i + 1 =>
      simp only [List.map_cons, List.map_nil, List.getD_cons_succ, List.getD_nil, EReal.toReal_zero]
      exact ⟨rfl, hasDerivAt_const θ (0 : ℝ)⟩

/-- A posterior guess for the coin `z` with log odds `t`. -/
noncomputable def coinLogit (t : ℝ) : Decl Bool :=
  ⟨"z", [], fun _ z => ENNReal.ofReal ((if z then Real.exp t else 1) / (1 + Real.exp t))⟩

theorem coinLogit_dens (t : ℝ) (w : ℕ → Bool) : jointDens [coinLogit t] w =
    ENNReal.ofReal ((if w 0 then Real.exp t else 1) / (1 + Real.exp t)) := by
  rw [jointDens_one, coinLogit]

theorem coinLogit_pos (t : ℝ) (z : Bool) : 0 < (if z then Real.exp t else 1) / (1 + Real.exp t) := by
  have := Real.exp_pos t
  cases z <;> simp <;> positivity

theorem coinLogit_joint (t : ℝ) (w : ℕ → Bool) :
    jointDens coins (modelVals (consts [("x", true)]) [coinLogit t] coins (fun i w => w i) w) =
      1 / 2 * if w 0 then 3 / 4 else 1 / 4 := by
  rw [← coinFair_joint]
  refine congrArg (jointDens coins) (funext fun i => ?_)
  match i with
  | 0 => simp [modelVals, consts, coins, coinLogit, coinFair, Dict.get?, List.findIdx?_cons]
  | 1 => simp [modelVals, consts, coins, Dict.get?, eval]
  | n + 2 => simp [modelVals, coins]

theorem coinLogit_family : Family (fun _ => Measure.count) (fun t => [coinLogit t]) (fun _ => coins)
    [("x", true)] (fun i w => w i) where
  fits := fun t =>
    { wfQ := by
        refine ⟨by simp, fun i d hd p hp => ?_⟩
        match i with
        | 0 => simp at hd; subst hd; simp [coinLogit] at hp
        | n + 1 => simp at hd
      wfP := coins_wf
      wfObs := coinFair_fits.wfObs
      covers := fun n => by
        have := coin_covers n
        simpa [coinGuess, coinLogit] using this
      draws := coinFair_fits.draws
      measQ := by
        intro d hd
        simp only [List.mem_singleton] at hd
        subst hd
        have h : Measurable (fun z : Bool =>
            ENNReal.ofReal ((if z then Real.exp t else 1) / (1 + Real.exp t))) := Measurable.of_discrete
        exact h.comp (f := fun p : (ℕ → Bool) × Bool => p.2) measurable_snd
      measP := coins_meas
      norm := by
        intro d hd u
        simp only [List.mem_singleton] at hd
        subst hd
        rw [lintegral_count, tsum_bool]
        show ENNReal.ofReal ((if false then Real.exp t else 1) / (1 + Real.exp t)) +
          ENNReal.ofReal ((if true then Real.exp t else 1) / (1 + Real.exp t)) = 1
        rw [← ENNReal.ofReal_add (coinLogit_pos t false).le (coinLogit_pos t true).le]
        have := Real.exp_pos t
        simp only [Bool.false_eq_true, if_false, if_true, ← add_div]
        rw [div_self (by positivity), ENNReal.ofReal_one] }
  names := fun t s => rfl
  posQ := fun t w => by
    rw [coinLogit_dens]
    exact ⟨by simpa using coinLogit_pos t (w 0), ENNReal.ofReal_ne_top⟩
  posP := fun t w => by
    rw [coinLogit_joint]
    have h3 : (3 / 4 : ℝ≥0∞) ≠ ⊤ := ENNReal.div_ne_top (by simp) (by simp)
    cases w 0 <;> constructor <;> simp [ENNReal.mul_eq_top, h3]

/-- The code builds the training graph of the coin, so that the theorems on finite values apply to it, and the
gradient of its log posterior is not zero. -/
example (θ : ℝ) (n : Name) : ∃ (l : ℝ → (ℕ → Bool) → EReal) (v : ℝ → VObj Bool ((ℕ → Bool) → EReal))
    (logJoint : (ℕ → Bool) → Dual) (lq : (ℕ → Bool) → Dual),
    Training (fun _ => Measure.count) (fun t => [coinLogit t]) (fun _ => coins) [("x", true)]
      (fun i w => w i) l v θ (fun _ w => w) logJoint [(n, lq)] ∧ ∀ w, (lq w).der ≠ 0 := by
  have hq : ∀ w : ℕ → Bool, HasDerivAt (fun t => logQ [coinLogit t] w)
      ((if w 0 then 1 else 0) - Real.exp θ / (1 + Real.exp θ)) θ := by
    intro w
    have hpos : ∀ t, 0 < 1 + Real.exp t := fun t => by positivity
    have e : ∀ t, logQ [coinLogit t] w = (if w 0 then t else 0) - Real.log (1 + Real.exp t) := by
      intro t
      rw [logQ, coinLogit_dens, ENNReal.toReal_ofReal (coinLogit_pos t _).le]
      cases w 0
      · simp
      · simp [Real.log_div (Real.exp_pos t).ne' (hpos t).ne']
    simp only [e]
    refine HasDerivAt.sub ?_ (((Real.hasDerivAt_exp θ).const_add 1).log (hpos θ).ne')
    cases w 0
    · exact hasDerivAt_const θ (0 : ℝ)
    · exact hasDerivAt_id θ
  have hp : ∀ w : ℕ → Bool, HasDerivAt (fun t => logP [coinLogit t] coins [("x", true)] (fun i w => w i) w)
      0 θ := by
    intro w
    simp only [logP, coinLogit_joint]
    exact hasDerivAt_const θ _
  obtain ⟨l, v, h⟩ := training_one coinLogit_family coinLogit (fun _ => rfl) θ (fun _ w => w) (fun _ => 0)
    (fun w => (if w 0 then 1 else 0) - Real.exp θ / (1 + Real.exp θ)) hp hq n
  refine ⟨l, v, _, _, h, fun w => ?_⟩
  have := Real.exp_pos θ
  show ((if w 0 then 1 else 0) - Real.exp θ / (1 + Real.exp θ) : ℝ) ≠ 0
  cases w 0
  · simp only [Bool.false_eq_true, if_false, zero_sub, neg_ne_zero]
    positivity
  · simp only [if_true]
    rw [one_sub_div (by positivity)]
    simp
    positivity

open ProbabilityTheory in
/-- A node `z` with a normal distribution of mean `t` and variance 1. -/
noncomputable def normalDecl (t : ℝ) : Decl ℝ := ⟨"z", [], fun _ z => gaussianPDF t 1 z⟩

theorem normalDecl_dens (t : ℝ) (w : ℕ → ℝ) :
    jointDens [normalDecl t] w = ProbabilityTheory.gaussianPDF t 1 (w 0) := by
  simp [jointDens, normalDecl]

theorem normalDecl_vals (t : ℝ) (w : ℕ → ℝ) :
    jointDens [normalDecl 0] (modelVals (consts []) [normalDecl t] [normalDecl 0] (fun i w => w i) w) =
      ProbabilityTheory.gaussianPDF 0 1 (w 0) := by
  rw [normalDecl_dens]
  simp [modelVals, consts, normalDecl, Dict.get?, List.findIdx?_cons]

theorem normalDecl_meas (t : ℝ) : ∀ d ∈ [normalDecl t],
    Measurable (fun p : (ℕ → ℝ) × ℝ => d.dens (d.parents.map p.1) p.2) := by
  intro d hd
  simp only [List.mem_singleton] at hd
  subst hd
  exact (ProbabilityTheory.measurable_gaussianPDF t 1).comp
    (measurable_snd : Measurable fun p : (ℕ → ℝ) × ℝ => p.2)

theorem normalDecl_wf (t : ℝ) : WellFormed [normalDecl t] := by
  refine ⟨by simp, fun i d hd p hp => ?_⟩
  match i with
  | 0 => simp at hd; subst hd; simp [normalDecl] at hp
  | n + 1 => simp at hd

theorem normalDecl_family : Family (fun _ => (volume : Measure ℝ)) (fun t => [normalDecl t])
    (fun _ => [normalDecl 0]) [] (fun i w => w i) where
  fits := fun t =>
    { wfQ := normalDecl_wf t
      wfP := normalDecl_wf 0
      wfObs := by simp [Dict.WF, Dict.keys]
      covers := fun n => by simp [normalDecl, Dict.get?]
      draws := fun i => measurable_pi_apply i
      measQ := normalDecl_meas t
      measP := normalDecl_meas 0
      norm := by
        intro d hd u
        simp only [List.mem_singleton] at hd
        subst hd
        exact ProbabilityTheory.lintegral_gaussianPDF_eq_one t one_ne_zero }
  names := fun t s => rfl
  posQ := fun t w => by
    rw [normalDecl_dens]
    exact ⟨(ProbabilityTheory.gaussianPDF_pos t one_ne_zero _).ne', ENNReal.ofReal_ne_top⟩
  posP := fun t w => by
    rw [normalDecl_vals]
    exact ⟨(ProbabilityTheory.gaussianPDF_pos 0 one_ne_zero _).ne', ENNReal.ofReal_ne_top⟩

theorem gaussian_log (t x : ℝ) : Real.log (ProbabilityTheory.gaussianPDF t 1 x).toReal =
    Real.log (Real.sqrt (2 * Real.pi))⁻¹ + -(x - t) ^ 2 / 2 := by
  rw [ProbabilityTheory.gaussianPDF, ENNReal.toReal_ofReal (ProbabilityTheory.gaussianPDFReal_nonneg _ _ _),
    ProbabilityTheory.gaussianPDFReal, Real.log_mul (by positivity) (Real.exp_pos _).ne', Real.log_exp]
  simp

theorem normalDecl_law (t : ℝ) (w0 : ℕ → ℝ) :
    (ProbabilityTheory.gaussianReal 0 1).map (fun e => Function.update w0 0 (t + e)) =
      latentLaw (fun _ => (volume : Measure ℝ)) [normalDecl t] w0 := by
  have hu : Measurable (fun x : ℝ => Function.update w0 0 x) := measurable_update w0
  refine Measure.ext_of_lintegral _ fun f hf => ?_
  have hfu : Measurable (fun x : ℝ => f (Function.update w0 0 x)) := hf.comp hu
  rw [lintegral_latentLaw _ (normalDecl_meas t) f hf w0]
  have hr : Finset.range [normalDecl t].length = {0} := rfl
  have h1 : ∫⁻ w, f w ∂((ProbabilityTheory.gaussianReal 0 1).map (fun e => Function.update w0 0 (t + e))) =
      ∫⁻ x, f (Function.update w0 0 x) ∂(ProbabilityTheory.gaussianReal t 1) := by
    have hg := ProbabilityTheory.gaussianReal_map_const_add (μ := 0) (v := 1) t
    rw [zero_add] at hg
    have hut : Measurable (fun e : ℝ => Function.update w0 0 (t + e)) := hu.comp (measurable_const_add t)
    rw [← hg, lintegral_map hf hut, lintegral_map hfu (measurable_const_add t)]
  rw [h1, hr, lmarginal_singleton, ProbabilityTheory.gaussianReal_of_var_ne_zero t one_ne_zero,
    lintegral_withDensity_eq_lintegral_mul _ (ProbabilityTheory.measurable_gaussianPDF t 1) hfu]
  refine lintegral_congr fun x => ?_
  simp [normalDecl_dens, mul_comm]

/-- The theorems on reparameterised samples apply to a normal posterior `t + e` of a standard normal model. -/
example (θ : ℝ) (n : Name) (w0 : ℕ → ℝ) :
    ∃ (l : ℝ → (ℕ → ℝ) → EReal) (v : ℝ → VObj ℝ ((ℕ → ℝ) → EReal)) (logJoint lq : ℝ → Dual),
    Training (fun _ => (volume : Measure ℝ)) (fun t => [normalDecl t]) (fun _ => [normalDecl 0]) []
      (fun i w => w i) l v θ (fun t e => Function.update w0 0 (t + e)) logJoint [(n, lq)] ∧
    (∀ t, Measurable fun e : ℝ => Function.update w0 0 (t + e)) ∧
    (∀ t, (ProbabilityTheory.gaussianReal 0 1).map (fun e => Function.update w0 0 (t + e)) =
      latentLaw (fun _ => (volume : Measure ℝ)) [normalDecl t] w0) ∧
    Reparam (ProbabilityTheory.gaussianReal 0 1) (fun t e => Function.update w0 0 (t + e))
      (fun t => logP [normalDecl t] [normalDecl 0] [] (fun i w => w i)) (fun t => logQ [normalDecl t])
      (fun t e => -(t + e)) (fun _ _ => 0) (fun e => |θ| + 1 + |e|) θ 1 := by
  have eP : ∀ t w, logP [normalDecl t] [normalDecl 0] [] (fun i w => w i) w =
      Real.log (Real.sqrt (2 * Real.pi))⁻¹ + -(w 0) ^ 2 / 2 := fun t w => by
    rw [logP, normalDecl_vals, gaussian_log, sub_zero]
  have eQ : ∀ t w, logQ [normalDecl t] w =
      Real.log (Real.sqrt (2 * Real.pi))⁻¹ + -(w 0 - t) ^ 2 / 2 := fun t w => by
    rw [logQ, normalDecl_dens, gaussian_log]
  have hu : Measurable (fun x : ℝ => Function.update w0 0 x) := measurable_update w0
  have hp : ∀ e t : ℝ, HasDerivAt (fun t => logP [normalDecl t] [normalDecl 0] [] (fun i w => w i)
      (Function.update w0 0 (t + e))) (-(t + e)) t := by
    intro e t
    simp only [eP, Function.update_self]
    have := (((((hasDerivAt_id t).add_const e).pow 2).neg).div_const 2).const_add
      (Real.log (Real.sqrt (2 * Real.pi))⁻¹)
    exact this.congr_deriv (by simp; ring)
  have hq : ∀ e t : ℝ, HasDerivAt (fun t => logQ [normalDecl t] (Function.update w0 0 (t + e))) 0 t := by
    intro e t
    simp only [eQ, Function.update_self, add_sub_cancel_left]
    exact hasDerivAt_const t _
  obtain ⟨l, v, h⟩ := training_one normalDecl_family normalDecl (fun _ => rfl) θ
    (fun t e => Function.update w0 0 (t + e)) (fun e => -(θ + e)) (fun _ => 0) (fun e => hp e θ)
    (fun e => hq e θ) n
  have i1 : Integrable (fun e : ℝ => e) (ProbabilityTheory.gaussianReal 0 1) :=
    (ProbabilityTheory.memLp_id_gaussianReal 1).integrable le_rfl
  refine ⟨l, v, _, _, h, fun t => hu.comp (measurable_const_add t), fun t => normalDecl_law t w0,
    one_pos, fun e t _ => hp e t, fun e t _ => hq e t, fun t => ?_, by fun_prop, ?_, ?_, ?_⟩
  · simp only [eP, eQ, Function.update_self]
    fun_prop
  · simp only [eP, eQ, Function.update_self]
    refine (((integrable_const (-(θ ^ 2) / 2)).add (i1.const_mul (-θ)))).congr
      (Filter.Eventually.of_forall fun e => ?_)
    simp; ring
  · intro e t ht
    rw [sub_zero, abs_neg]
    have h1 := abs_add_le t e
    have h2 : |t| ≤ |θ| + 1 := by
      have h3 : |t - θ| ≤ 1 := by rw [abs_le]; constructor <;> linarith [ht.1, ht.2]
      have h4 := abs_add_le θ (t - θ)
      simp at h4; linarith
    linarith
  · exact (integrable_const _).add i1.abs

end ZhuSuan.VObj
