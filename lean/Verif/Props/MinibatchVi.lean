import Verif.Lemmas.PiMeasure
import Verif.Model.MinibatchVi
import Verif.Props.Elbo
import Verif.Props.Minibatch
import Verif.Props.Normal
import Verif.Spec.MinibatchVi

/-!
# C95  The evidence lower bound computed from a batch
-/

set_option autoImplicit false

open MeasureTheory ProbabilityTheory InformationTheory

namespace ZhuSuan.Minibatch

variable {n K : ℕ} {X Y W : Type}

theorem lowerBound_eq {D : Type} (prior : W → ℝ) (lik : D → W → ℝ) (logq : W → ℝ) (fed : List D) (w : Fin K → W) :
    lowerBound n prior lik logq fed w = (∑ k, (logJoint n prior lik fed (w k) - logq (w k))) / K := by
  rw [lowerBound, Grad.elboObjective_val]
  rfl

theorem mem_feed (s : Arrays n X Y) (b t : ℕ) {d : X × Y} (h : d ∈ s.feed b t) : ∃ i, d = (s.x i, s.y i) := by
  rw [feed_eq, batch, slice] at h
  obtain ⟨i, hi⟩ := (List.mem_ofFn' _ _).1 (List.mem_of_mem_take (List.mem_of_mem_drop h))
  exact ⟨i, hi.symm⟩

theorem integrable_list {D : Type} [MeasurableSpace W] {Q : Measure W} {lik : D → W → ℝ} (l : List D)
    (h : ∀ d ∈ l, Integrable (lik d) Q) :
    Integrable (fun w => (l.map fun d => lik d w).sum) Q ∧
      ∫ w, (l.map fun d => lik d w).sum ∂Q = (l.map fun d => ∫ w, lik d w ∂Q).sum := by
  induction l with
  | nil => simp
  | cons d l ih =>
    obtain ⟨h1, h2⟩ := ih fun e he => h e (List.mem_cons_of_mem _ he)
    have h3 := h d List.mem_cons_self
    simp only [List.map_cons, List.sum_cons]
    exact ⟨h3.add h1, by rw [integral_add h3 h1, h2]⟩

/-- The expected value of the bound on given rows, over the samples. -/
theorem bound_mean [MeasurableSpace W] {Q : Measure W} [IsProbabilityMeasure Q] {D : Type} {prior : W → ℝ} {lik : D → W → ℝ}
    {logq : W → ℝ} (fed : List D) (h1 : Integrable (fun w => prior w - logq w) Q) (h2 : ∀ d ∈ fed, Integrable (lik d) Q) :
    ∫ w, lowerBound n prior lik logq fed w ∂(Measure.pi fun _ : Fin (K + 1) => Q) =
      logJoint n (fun _ => ∫ w, (prior w - logq w) ∂Q) (fun d _ => ∫ w, lik d w ∂Q) fed () := by
  obtain ⟨i1, i2⟩ := integrable_list fed h2
  have e : (fun w => logJoint n prior lik fed w - logq w) =
      fun w => (prior w - logq w) + (fed.map fun d => lik d w).sum * ((fed.length : ℝ)⁻¹ * n) := by
    funext w
    rw [logJoint, mean, List.length_map]
    ring
  have i3 : Integrable (fun w => logJoint n prior lik fed w - logq w) Q := by
    rw [e]
    exact h1.add (i1.mul_const _)
  have e1 : ∀ k : Fin (K + 1), ∫ w : Fin (K + 1) → W, (logJoint n prior lik fed (w k) - logq (w k)) ∂(Measure.pi fun _ => Q) =
      ∫ w, (logJoint n prior lik fed w - logq w) ∂Q := fun k =>
    integral_comp_eval (μ := fun _ : Fin (K + 1) => Q) (i := k) i3.1
  simp only [lowerBound_eq]
  rw [integral_div, integral_finsetSum _ fun k _ => integrable_comp_eval (μ := fun _ : Fin (K + 1) => Q) (i := k) i3]
  simp only [e1, Finset.sum_const, Finset.card_univ, Fintype.card_fin, nsmul_eq_mul]
  rw [e, integral_add h1 (i1.mul_const _), integral_mul_const, i2, logJoint, mean, List.length_map]
  have : ((K + 1 : ℕ) : ℝ) ≠ 0 := by positivity
  field_simp

/-- **C95.** With uniform shuffles, the expected evidence lower bound of a batch, over the shuffle and the samples of the particles, is
the logarithm of the evidence of all the data minus the divergence of the variational distribution from the posterior given all the data;
for any batch size, in every iteration of every epoch (also in the last one, which may have fewer rows), for any number of particles. -/
theorem C95_elbo [MeasurableSpace W] (μ : Measure W) (s : Arrays n X Y) (perms : List (Equiv.Perm (Fin n))) (b t : ℕ) (hb : 0 < b)
    (ht : t < itersUp n b) (prior : W → ℝ) (lik : X × Y → W → ℝ) (logq : W → ℝ)
    (h : Grad.LatentModel μ (fun w => Real.exp (prior w + ∑ i, lik (s.x i, s.y i) w)) (fun w => Real.exp (logq w)))
    (h1 : Integrable (fun w => prior w - logq w) (Grad.law μ fun w => Real.exp (logq w)))
    (h2 : ∀ i, Integrable (lik (s.x i, s.y i)) (Grad.law μ fun w => Real.exp (logq w))) :
    let q := Grad.law μ fun w => Real.exp (logq w)
    let p := fun w => Real.exp (prior w + ∑ i, lik (s.x i, s.y i) w)
    klDiv q (Grad.posterior μ p) ≠ ⊤ ∧
    ∫ σ, ∫ w, lowerBound n prior lik logq (((s.epochs perms).permute σ).feed b t) w ∂(Measure.pi fun _ : Fin (K + 1) => q) ∂uniform n =
      Real.log (Grad.evidence μ p) - (klDiv q (Grad.posterior μ p)).toReal := by
  intro q p
  have hq : IsProbabilityMeasure q := h.isProb
  have hfed : ∀ σ, ∀ d ∈ ((s.epochs perms).permute σ).feed b t, Integrable (lik d) q := by
    intro σ d hd
    obtain ⟨i, rfl⟩ := mem_feed _ _ _ hd
    rw [epochs_eq, permute_mul]
    exact h2 _
  have e0 : ∀ σ, ∫ w, lowerBound n prior lik logq (((s.epochs perms).permute σ).feed b t) w ∂(Measure.pi fun _ : Fin (K + 1) => q) =
      logJoint n (fun _ => ∫ w, (prior w - logq w) ∂q) (fun d _ => ∫ w, lik d w ∂q) (((s.epochs perms).permute σ).feed b t) () :=
    fun σ => bound_mean _ h1 (hfed σ)
  simp only [e0]
  rw [C92_unbiased s perms b t hb ht]
  have i4 : Integrable (fun w => ∑ i, lik (s.x i, s.y i) w) q := integrable_finsetSum _ fun i _ => h2 i
  have e : (fun w => Real.log (p w) - Real.log (Real.exp (logq w))) = fun w => (prior w - logq w) + ∑ i, lik (s.x i, s.y i) w := by
    funext w
    simp only [p, Real.log_exp]
    ring
  have hi : Integrable (fun w => Real.log (p w) - Real.log (Real.exp (logq w))) q := by
    rw [e]
    exact h1.add i4
  obtain ⟨g1, g2⟩ := Grad.C39_elbo_gap (logp := fun w => .const (Real.log (p w))) (logq := fun w => .const (Real.log (Real.exp (logq w)))) h
    (fun _ => rfl) (fun _ => rfl) hi 0
  refine ⟨g1, ?_⟩
  rw [← g2]
  simp only [Grad.elboObjective_val, Grad.Dual.const]
  have e1 : ∫ w : Fin (0 + 1) → W, (∑ k, (Real.log (p (w k)) - Real.log (Real.exp (logq (w k))))) / (0 + 1 : ℕ) ∂(Measure.pi fun _ => q) =
      ∫ w, (Real.log (p w) - Real.log (Real.exp (logq w))) ∂q := by
    have := integral_comp_eval (μ := fun _ : Fin (0 + 1) => q) (i := 0) hi.1
    rw [← this]
    refine integral_congr_ae (Filter.Eventually.of_forall fun w => ?_)
    simp
  rw [e1, e, integral_add h1 i4, integral_finsetSum _ fun i _ => h2 i]

/-- **C95.** So it is a lower bound of the evidence of all the data, on average. -/
theorem C95_le [MeasurableSpace W] (μ : Measure W) (s : Arrays n X Y) (perms : List (Equiv.Perm (Fin n))) (b t : ℕ) (hb : 0 < b)
    (ht : t < itersUp n b) (prior : W → ℝ) (lik : X × Y → W → ℝ) (logq : W → ℝ)
    (h : Grad.LatentModel μ (fun w => Real.exp (prior w + ∑ i, lik (s.x i, s.y i) w)) (fun w => Real.exp (logq w)))
    (h1 : Integrable (fun w => prior w - logq w) (Grad.law μ fun w => Real.exp (logq w)))
    (h2 : ∀ i, Integrable (lik (s.x i, s.y i)) (Grad.law μ fun w => Real.exp (logq w))) :
    ∫ σ, ∫ w, lowerBound n prior lik logq (((s.epochs perms).permute σ).feed b t) w
        ∂(Measure.pi fun _ : Fin (K + 1) => Grad.law μ fun w => Real.exp (logq w)) ∂uniform n ≤
      Real.log (Grad.evidence μ fun w => Real.exp (prior w + ∑ i, lik (s.x i, s.y i) w)) := by
  rw [(C95_elbo (K := K) μ s perms b t hb ht prior lik logq h h1 h2).2]
  exact sub_le_self _ ENNReal.toReal_nonneg

/-- **C95.** For fixed noise of the particles, the gradient of the bound of a batch is an unbiased estimate of the gradient of the bound of
all the data: `prior`, `lik`, `logq` and the samples `w` may depend on the parameter `θ` in any differentiable way. -/
theorem C95_gradient (s : Arrays n X Y) (perms : List (Equiv.Perm (Fin n))) (b t : ℕ) (hb : 0 < b)
    (ht : t < itersUp n b) (prior : ℝ → W → ℝ) (lik : ℝ → X × Y → W → ℝ) (logq : ℝ → W → ℝ) (w : ℝ → Fin K → W) (θ : ℝ)
    (h1 : ∀ k, DifferentiableAt ℝ (fun a => prior a (w a k)) θ) (h2 : ∀ k i, DifferentiableAt ℝ (fun a => lik a (s.x i, s.y i) (w a k)) θ)
    (h3 : ∀ k, DifferentiableAt ℝ (fun a => logq a (w a k)) θ) :
    ∫ σ, deriv (fun a => lowerBound n (prior a) (lik a) (logq a) (((s.epochs perms).permute σ).feed b t) (w a)) θ ∂uniform n =
      deriv (fun a => (∑ k, (prior a (w a k) + ∑ i, lik a (s.x i, s.y i) (w a k) - logq a (w a k))) / K) θ := by
  have hd : ∀ σ, DifferentiableAt ℝ (fun a => lowerBound n (prior a) (lik a) (logq a) (((s.epochs perms).permute σ).feed b t) (w a)) θ := by
    intro σ
    simp only [lowerBound_eq, logJoint, mean, List.length_map]
    have hl : ∀ k (l : List (X × Y)), (∀ d ∈ l, DifferentiableAt ℝ (fun a => lik a d (w a k)) θ) →
        DifferentiableAt ℝ (fun a => (l.map fun d => lik a d (w a k)).sum) θ := by
      intro k l hl
      induction l with
      | nil => simp
      | cons d l ih =>
        simp only [List.map_cons, List.sum_cons]
        exact (hl d List.mem_cons_self).add (ih fun e he => hl e (List.mem_cons_of_mem _ he))
    refine DifferentiableAt.div_const (DifferentiableAt.fun_sum fun k _ => ((h1 k).add (((hl k _ fun d hd => ?_).div_const _).mul_const _)).sub
      (h3 k)) _
    obtain ⟨i, rfl⟩ := mem_feed _ _ _ hd
    rw [epochs_eq, permute_mul]
    exact h2 k _
  have e : (fun a => (∑ k, (prior a (w a k) + ∑ i, lik a (s.x i, s.y i) (w a k) - logq a (w a k))) / K) =
      fun a => (∑ σ, lowerBound n (prior a) (lik a) (logq a) (((s.epochs perms).permute σ).feed b t) (w a)) /
        Fintype.card (Equiv.Perm (Fin n)) := by
    funext a
    rw [← integral_uniform]
    simp only [lowerBound_eq]
    rw [integral_div, integral_finsetSum _ fun _ _ => uniform_int _]
    congr 1
    refine Finset.sum_congr rfl fun k _ => ?_
    rw [integral_sub (uniform_int _) (uniform_int _), C92_unbiased s perms b t hb ht]
    simp
  rw [integral_uniform, e, deriv_div_const, deriv_fun_sum fun σ _ => hd σ]

/-! ## The Bayesian neural net -/

section
variable {L : ℕ} {sizes : ℕ → ℕ}

theorem integrable_poly {Ω E : Type} [MeasurableSpace Ω] {P : Measure Ω} [IsProbabilityMeasure P] [NormedAddCommGroup E] {Z : Ω → E}
    (hZ : ∀ p : ℕ, MemLp Z p P) {f : Ω → ℝ} (hf : AEStronglyMeasurable f P) (c : ℝ) (k : ℕ) (h : ∀ ω, |f ω| ≤ c * (1 + ‖Z ω‖) ^ k) :
    Integrable f P := by
  have h0 : MemLp (fun _ : Ω => (1 : ℝ)) (k : ENNReal) P := memLp_const 1
  have h1 : MemLp (fun ω => (1 : ℝ) + ‖Z ω‖) (k : ENNReal) P := h0.add (hZ k).norm
  have h3 : Integrable (fun ω => ‖(1 : ℝ) + ‖Z ω‖‖ ^ k) P := h1.integrable_norm_pow'
  have h2 : Integrable (fun ω => c * (1 + ‖Z ω‖) ^ k) P := by
    refine (h3.congr (Filter.Eventually.of_forall fun ω => ?_)).const_mul c
    have : 0 ≤ 1 + ‖Z ω‖ := by positivity
    simp only [Real.norm_eq_abs, abs_of_nonneg this]
  exact h2.mono' hf (Filter.Eventually.of_forall h)

theorem continuous_wAt (l : ℕ) (m : Fin (sizes (l + 1))) (k : Fin (sizes l + 1)) : Continuous fun w : Wt L sizes → ℝ => wAt w l m k := by
  unfold wAt
  split
  · fun_prop
  · exact continuous_const

theorem continuous_hidden (x : Fin (sizes 0) → ℝ) (l : ℕ) (m : Fin (sizes l)) : Continuous fun w : Wt L sizes → ℝ => hidden w x l m := by
  induction l with
  | zero => exact continuous_const
  | succ l ih =>
    have h : ∀ k : Fin (sizes l + 1), Continuous fun w : Wt L sizes → ℝ => (Fin.snoc (hidden w x l) 1 : Fin (sizes l + 1) → ℝ) k := by
      intro k
      refine Fin.lastCases ?_ (fun k => ?_) k
      · simp only [Fin.snoc_last]; exact continuous_const
      · simp only [Fin.snoc_castSucc]; exact ih k
    have h2 : Continuous fun w : Wt L sizes → ℝ =>
        (∑ k, wAt w l m k * (Fin.snoc (hidden w x l) 1 : Fin (sizes l + 1) → ℝ) k) / Real.sqrt (sizes l + 1 : ℕ) :=
      (continuous_finsetSum _ fun k _ => (continuous_wAt l m k).mul (h k)).div_const _
    simp only [hidden]
    split
    · exact h2.max continuous_const
    · exact h2

theorem abs_wAt (w : Wt L sizes → ℝ) (l : ℕ) (m : Fin (sizes (l + 1))) (k : Fin (sizes l + 1)) : |wAt w l m k| ≤ ‖w‖ := by
  unfold wAt
  split
  · exact norm_le_pi_norm w _
  · simp

theorem hidden_growth (x : Fin (sizes 0) → ℝ) (l : ℕ) : ∃ c : ℝ, 0 ≤ c ∧ ∀ (w : Wt L sizes → ℝ) m, |hidden w x l m| ≤ c * (1 + ‖w‖) ^ l := by
  induction l with
  | zero => exact ⟨‖x‖, norm_nonneg _, fun w m => by simpa [hidden] using norm_le_pi_norm x m⟩
  | succ l ih =>
    obtain ⟨c, hc, h⟩ := ih
    refine ⟨(sizes l + 1 : ℕ) * (c + 1), by positivity, fun w m => ?_⟩
    have hw : 1 ≤ (1 + ‖w‖) ^ l := one_le_pow₀ (by linarith [norm_nonneg w])
    have h1 : ∀ k : Fin (sizes l + 1), |(Fin.snoc (hidden w x l) 1 : Fin (sizes l + 1) → ℝ) k| ≤ (c + 1) * (1 + ‖w‖) ^ l := by
      intro k
      refine Fin.lastCases ?_ (fun k => ?_) k
      · simp only [Fin.snoc_last, abs_one]; nlinarith
      · simp only [Fin.snoc_castSucc]; linarith [h w k]
    set a := (∑ k, wAt w l m k * (Fin.snoc (hidden w x l) 1 : Fin (sizes l + 1) → ℝ) k) / Real.sqrt (sizes l + 1 : ℕ) with ha
    have h2 : |a| ≤ (sizes l + 1 : ℕ) * (c + 1) * (1 + ‖w‖) ^ (l + 1) := by
      have hs : 1 ≤ Real.sqrt (sizes l + 1 : ℕ) := by
        rw [Real.one_le_sqrt]
        push_cast
        linarith [(Nat.cast_nonneg (sizes l) : (0 : ℝ) ≤ _)]
      have h3 : |∑ k, wAt w l m k * (Fin.snoc (hidden w x l) 1 : Fin (sizes l + 1) → ℝ) k| ≤
          ∑ _k : Fin (sizes l + 1), (1 + ‖w‖) * ((c + 1) * (1 + ‖w‖) ^ l) := by
        refine (Finset.abs_sum_le_sum_abs _ _).trans (Finset.sum_le_sum fun k _ => ?_)
        rw [abs_mul]
        exact mul_le_mul ((abs_wAt w l m k).trans (by linarith)) (h1 k) (abs_nonneg _) (by positivity)
      rw [Finset.sum_const, Finset.card_univ, Fintype.card_fin, nsmul_eq_mul] at h3
      rw [ha, abs_div, abs_of_nonneg (Real.sqrt_nonneg _)]
      refine (div_le_self (abs_nonneg _) hs).trans (h3.trans (le_of_eq ?_))
      ring
    simp only [hidden]
    split
    · refine le_trans ?_ h2
      rw [abs_of_nonneg (le_max_right _ _)]
      exact max_le (le_abs_self _) (abs_nonneg _)
    · exact h2

theorem logProb_le (m l x : ℝ) : Uni.Normal.logProb m l x ≤ -0.5 * Real.log (2 * Real.pi) - l := by
  have : 0 ≤ 0.5 * Real.exp (-2 * l) * (x - m) ^ 2 := by positivity
  simp only [Uni.Normal.logProb]
  linarith

theorem abs_logProb (m l x : ℝ) : |Uni.Normal.logProb m l x| ≤
    |-0.5 * Real.log (2 * Real.pi) - l| + 0.5 * Real.exp (-2 * l) * (|x| + |m|) ^ 2 := by
  simp only [Uni.Normal.logProb]
  refine (abs_sub _ _).trans (add_le_add le_rfl ?_)
  rw [abs_of_nonneg (by positivity)]
  refine mul_le_mul_of_nonneg_left ?_ (by positivity)
  rw [← sq_abs]
  exact pow_le_pow_left₀ (abs_nonneg _) (abs_sub _ _) 2

theorem logLik_growth (hL : sizes L = 1) (l : ℝ) (d : (Fin (sizes 0) → ℝ) × ℝ) :
    ∃ c : ℝ, ∀ w : Wt L sizes → ℝ, |logLik hL l d w| ≤ c * (1 + ‖w‖) ^ (L * 2) := by
  obtain ⟨c, hc, h⟩ := hidden_growth (L := L) d.1 L
  refine ⟨|-0.5 * Real.log (2 * Real.pi) - l| + 0.5 * Real.exp (-2 * l) * (|d.2| + c) ^ 2, fun w => ?_⟩
  refine (abs_logProb _ _ _).trans ?_
  have h1 : 1 ≤ (1 + ‖w‖) ^ L := one_le_pow₀ (by linarith [norm_nonneg w])
  have h2 : |d.2| + |yMean hL w d.1| ≤ (|d.2| + c) * (1 + ‖w‖) ^ L := by
    have := h w ⟨0, by omega⟩
    rw [yMean]
    nlinarith [abs_nonneg d.2]
  have h3 : (|d.2| + |yMean hL w d.1|) ^ 2 ≤ (|d.2| + c) ^ 2 * (1 + ‖w‖) ^ (L * 2) := by
    rw [pow_mul, ← mul_pow]
    exact pow_le_pow_left₀ (by positivity) h2 2
  have h4 : 1 ≤ (1 + ‖w‖) ^ (L * 2) := one_le_pow₀ (by linarith [norm_nonneg w])
  have h5 := mul_le_mul_of_nonneg_left h3 (show 0 ≤ 0.5 * Real.exp (-2 * l) by positivity)
  nlinarith [abs_nonneg (-0.5 * Real.log (2 * Real.pi) - l)]

theorem logQ_growth (wm wl : Wt L sizes → ℝ) : ∃ c : ℝ, ∀ w : Wt L sizes → ℝ, |logQ wm wl w| ≤ c * (1 + ‖w‖) ^ 2 := by
  refine ⟨∑ j, (|-0.5 * Real.log (2 * Real.pi) - wl j| + 0.5 * Real.exp (-2 * wl j) * (1 + |wm j|) ^ 2), fun w => ?_⟩
  rw [Finset.sum_mul]
  refine (Finset.abs_sum_le_sum_abs _ _).trans (Finset.sum_le_sum fun j _ => ?_)
  refine (abs_logProb _ _ _).trans ?_
  have h0 := norm_nonneg w
  have h1 : |w j| + |wm j| ≤ (1 + |wm j|) * (1 + ‖w‖) := by
    have : |w j| ≤ ‖w‖ := norm_le_pi_norm w j
    nlinarith [abs_nonneg (wm j)]
  have h3 : (|w j| + |wm j|) ^ 2 ≤ (1 + |wm j|) ^ 2 * (1 + ‖w‖) ^ 2 := by
    rw [← mul_pow]
    exact pow_le_pow_left₀ (by positivity) h1 2
  have h4 : 1 ≤ (1 + ‖w‖) ^ 2 := one_le_pow₀ (by linarith)
  have h5 := mul_le_mul_of_nonneg_left h3 (show 0 ≤ 0.5 * Real.exp (-2 * wl j) by positivity)
  nlinarith [abs_nonneg (-0.5 * Real.log (2 * Real.pi) - wl j)]

theorem logPrior_eq (w : Wt L sizes → ℝ) : logPrior w = logQ 0 0 w := by simp [logPrior, logQ]

theorem continuous_logQ (wm wl : Wt L sizes → ℝ) : Continuous (logQ wm wl) := by
  unfold logQ Uni.Normal.logProb
  fun_prop

theorem continuous_logLik (hL : sizes L = 1) (l : ℝ) (d : (Fin (sizes 0) → ℝ) × ℝ) :
    Continuous fun w : Wt L sizes → ℝ => logLik hL l d w := by
  unfold logLik Uni.Normal.logProb yMean
  have := continuous_hidden (L := L) d.1 L ⟨0, by omega⟩
  fun_prop

/-- The law of the samples of the variational net. -/
theorem sampleQ_law (wm wl : Wt L sizes → ℝ) : (Measure.pi fun _ : Wt L sizes => gaussianReal 0 1).map (sampleQ wm wl) =
    volume.withDensity fun w => ENNReal.ofReal (Real.exp (logQ wm wl w)) := by
  have hm : ∀ j, Measurable (Uni.Normal.sample (wm j) (Real.exp (wl j))) := fun j => by unfold Uni.Normal.sample; fun_prop
  have h1 : ∀ j, (gaussianReal 0 1).map (Uni.Normal.sample (wm j) (Real.exp (wl j))) =
      volume.withDensity (fun x => ENNReal.ofReal (Real.exp (Uni.Normal.logProb (wm j) (wl j) x))) := fun j =>
    Uni.C18_sampler (wm j) (.logstd (wl j)) trivial
  have h2 : ∀ j, IsProbabilityMeasure
      ((volume : Measure ℝ).withDensity (fun x => ENNReal.ofReal (Real.exp (Uni.Normal.logProb (wm j) (wl j) x)))) := fun j => by
    rw [← h1 j]
    exact Measure.isProbabilityMeasure_map (hm j).aemeasurable
  have e : sampleQ wm wl = fun z j => Uni.Normal.sample (wm j) (Real.exp (wl j)) (z j) := rfl
  have h3 := Measure.pi_map_pi (μ := fun _ : Wt L sizes => gaussianReal 0 1)
    (f := fun j => Uni.Normal.sample (wm j) (Real.exp (wl j))) fun j => (hm j).aemeasurable
  rw [e, h3]
  simp only [h1]
  rw [Meas.pi_withDensity (μ := fun _ : Wt L sizes => (volume : Measure ℝ)) _ fun j => by unfold Uni.Normal.logProb; fun_prop, volume_pi]
  congr 1
  funext w
  rw [logQ, Real.exp_sum, ENNReal.ofReal_prod_of_nonneg fun _ _ => (Real.exp_pos _).le]

theorem memLp_sampleQ (wm wl : Wt L sizes → ℝ) (p : ℕ) : MemLp (sampleQ wm wl) p (Measure.pi fun _ : Wt L sizes => gaussianReal 0 1) := by
  have h1 : MemLp (id : ℝ → ℝ) p (gaussianReal 0 1) := memLp_id_gaussianReal' p (by simp)
  have h : ∀ j, MemLp (fun z : Wt L sizes → ℝ => z j) p (Measure.pi fun _ : Wt L sizes => gaussianReal 0 1) := fun j =>
    h1.comp_measurePreserving (measurePreserving_eval (fun _ : Wt L sizes => gaussianReal 0 1) j)
  have h2 : ∀ j, MemLp (fun z => ‖sampleQ wm wl z j‖) p (Measure.pi fun _ : Wt L sizes => gaussianReal 0 1) := fun j =>
    (((h j).mul_const (Real.exp (wl j))).add (memLp_const (wm j))).norm
  refine (memLp_finsetSum Finset.univ fun j _ => h2 j).mono (measurable_pi_lambda _ fun j =>
    ((measurable_pi_apply j).mul_const _).add_const _).aestronglyMeasurable (Filter.Eventually.of_forall fun z => ?_)
  rw [Real.norm_of_nonneg (Finset.sum_nonneg fun j _ => norm_nonneg _)]
  exact (pi_norm_le_iff_of_nonneg (Finset.sum_nonneg fun j _ => norm_nonneg _)).2 fun j =>
    Finset.single_le_sum (f := fun j => ‖sampleQ wm wl z j‖) (fun j _ => norm_nonneg _) (Finset.mem_univ j)

theorem bnn_elbo (hL : sizes L = 1) (yLogstd : ℝ) (wMean wLogstd : Wt L sizes → ℝ) (s : Arrays n (Fin (sizes 0) → ℝ) ℝ)
    (perms : List (Equiv.Perm (Fin n))) (b t : ℕ) (hb : 0 < b) (ht : t < itersUp n b) :
    let prior : Measure (Wt L sizes → ℝ) := Measure.pi fun _ => gaussianReal 0 1
    let q : Measure (Wt L sizes → ℝ) := Measure.pi fun j => gaussianReal (wMean j) (Uni.sq (Real.exp (wLogstd j)))
    let lik : (Wt L sizes → ℝ) → ℝ := fun w => ∏ i, gaussianPDFReal (yMean hL w (s.x i)) (Uni.sq (Real.exp yLogstd)) (s.y i)
    let noise : Measure (Fin (K + 1) → Wt L sizes → ℝ) := Measure.pi fun _ => Measure.pi fun _ => gaussianReal 0 1
    klDiv q (Grad.posterior prior lik) ≠ ⊤ ∧
    ∫ σ, ∫ z, bnnBound hL yLogstd wMean wLogstd b t ((s.epochs perms).permute σ) z ∂noise ∂uniform n =
      Real.log (Grad.evidence prior lik) - (klDiv q (Grad.posterior prior lik)).toReal := by
  intro prior q lik noise
  set f : (Fin (sizes 0) → ℝ) × ℝ → (Wt L sizes → ℝ) → ℝ := fun d w => logLik hL yLogstd d w with hf
  set r : (Wt L sizes → ℝ) → ℝ := fun w => logQ wMean wLogstd w - logPrior w with hr
  set G : Measure (Wt L sizes → ℝ) := Measure.pi fun _ => gaussianReal 0 1 with hG
  have mS : ∀ wm wl : Wt L sizes → ℝ, Measurable (sampleQ wm wl) := fun wm wl =>
    measurable_pi_lambda _ fun j => ((measurable_pi_apply j).mul_const _).add_const _
  have cr : Continuous r := by
    simp only [hr, logPrior_eq]
    exact (continuous_logQ _ _).sub (continuous_logQ _ _)
  -- the two measures as densities
  have hp : prior = volume.withDensity fun w => ENNReal.ofReal (Real.exp (logPrior w)) := by
    simp only [logPrior_eq]
    rw [← sampleQ_law]
    have : sampleQ (0 : Wt L sizes → ℝ) 0 = id := by funext z j; simp [sampleQ, Uni.Normal.sample]
    rw [this, Measure.map_id]
  have hqG : G.map (sampleQ wMean wLogstd) = q := by
    have h3 := Measure.pi_map_pi (μ := fun _ : Wt L sizes => gaussianReal 0 1)
      (f := fun j => Uni.Normal.sample (wMean j) (Real.exp (wLogstd j))) fun j => by unfold Uni.Normal.sample; fun_prop
    refine h3.trans ?_
    congr 1
    funext j
    refine (Uni.C18_sampler (wMean j) (.logstd (wLogstd j)) trivial).trans ?_
    rw [gaussianReal_of_var_ne_zero _ (Uni.sq_ne_zero (Real.exp_pos _))]
    congr 1
    funext x
    rw [gaussianPDF]
    congr 1
    exact Uni.C18_density (wMean j) (.logstd (wLogstd j)) trivial x
  have hlaw : Grad.law prior (fun w => Real.exp (r w)) = q := by
    rw [← hqG, sampleQ_law, Grad.law, hp, ← withDensity_mul _ (by
      simp only [logPrior_eq]; exact ((continuous_logQ _ _).rexp.measurable.ennreal_ofReal)) cr.rexp.measurable.ennreal_ofReal]
    congr 1
    funext w
    simp only [Pi.mul_apply, hr]
    rw [← ENNReal.ofReal_mul (Real.exp_pos _).le, ← Real.exp_add]
    congr 2
    ring
  have hqP : IsProbabilityMeasure q := by rw [← hqG]; exact Measure.isProbabilityMeasure_map (mS _ _).aemeasurable
  -- growth
  have hint : ∀ (g : (Wt L sizes → ℝ) → ℝ), Continuous g → (∃ c k, ∀ w, |g w| ≤ c * (1 + ‖w‖) ^ k) → Integrable g q := by
    rintro g hg ⟨c, k, h⟩
    rw [← hqG, integrable_map_measure hg.aestronglyMeasurable (mS _ _).aemeasurable]
    exact integrable_poly (Z := sampleQ wMean wLogstd) (memLp_sampleQ wMean wLogstd)
      (hg.measurable.comp (mS _ _)).aestronglyMeasurable c k fun z => h _
  have i1 : Integrable r q := by
    refine hint r cr ?_
    obtain ⟨c1, h1⟩ := logQ_growth wMean wLogstd
    obtain ⟨c2, h2⟩ := logQ_growth (0 : Wt L sizes → ℝ) 0
    refine ⟨c1 + c2, 2, fun w => ?_⟩
    simp only [hr, logPrior_eq]
    refine (abs_sub _ _).trans ?_
    rw [add_mul]
    exact add_le_add (h1 w) (h2 w)
  have i2 : ∀ d, Integrable (f d) q := fun d => by
    obtain ⟨c, h⟩ := logLik_growth (L := L) hL yLogstd d
    exact hint _ (continuous_logLik hL yLogstd d) ⟨c, _, h⟩
  have hlik : ∀ w, lik w = Real.exp (0 + ∑ i, f (s.x i, s.y i) w) := by
    intro w
    rw [zero_add, Real.exp_sum]
    refine Finset.prod_congr rfl fun i _ => ?_
    exact (Uni.C18_density _ (.logstd yLogstd) trivial _).symm
  have cl : Continuous lik := by
    have : lik = fun w => Real.exp (0 + ∑ i, f (s.x i, s.y i) w) := funext hlik
    rw [this]
    exact (continuous_const.add (continuous_finsetSum _ fun i _ => continuous_logLik hL yLogstd _)).rexp
  have hpP : IsProbabilityMeasure prior := inferInstance
  have il : Integrable lik prior := by
    refine Integrable.of_bound cl.aestronglyMeasurable (Real.exp (∑ _i : Fin n, (-0.5 * Real.log (2 * Real.pi) - yLogstd)))
      (Filter.Eventually.of_forall fun w => ?_)
    rw [hlik, Real.norm_eq_abs, abs_of_pos (Real.exp_pos _), zero_add]
    exact Real.exp_le_exp.2 (Finset.sum_le_sum fun i _ => logProb_le _ _ _)
  have hr1 : ∫⁻ w, ENNReal.ofReal (Real.exp (r w)) ∂prior = 1 := by
    have := hqP.measure_univ
    rwa [← hlaw, Grad.law, withDensity_apply _ MeasurableSet.univ, Measure.restrict_univ] at this
  have ir : Integrable (fun w => Real.exp (r w)) prior := by
    refine ⟨cr.rexp.aestronglyMeasurable, ?_⟩
    rw [hasFiniteIntegral_iff_ofReal (Filter.Eventually.of_forall fun w => (Real.exp_pos _).le), hr1]
    exact ENNReal.one_lt_top
  have hM : Grad.LatentModel prior lik (fun w => Real.exp (r w)) := by
    refine ⟨cl.measurable, cr.rexp.measurable, fun w => ?_, fun w => (Real.exp_pos _).le, il, ?_, ir, ?_, fun w h => ?_⟩
    · rw [hlik]; exact (Real.exp_pos _).le
    · rw [Grad.evidence, integral_pos_iff_support_of_nonneg (fun w => by rw [hlik]; exact (Real.exp_pos _).le) il]
      have : Function.support lik = Set.univ := by
        ext w
        simp only [Function.mem_support, Set.mem_univ, iff_true, hlik]
        exact (Real.exp_pos _).ne'
      rw [this, measure_univ]
      exact one_pos
    · rw [integral_eq_lintegral_of_nonneg_ae (Filter.Eventually.of_forall fun w => (Real.exp_pos _).le) cr.rexp.aestronglyMeasurable, hr1]
      rfl
    · rw [hlik] at h
      exact absurd h (Real.exp_pos _).ne'
  have hlik' : lik = fun w => Real.exp ((fun _ => (0 : ℝ)) w + ∑ i, f (s.x i, s.y i) w) := funext hlik
  rw [hlik'] at hM ⊢
  obtain ⟨g1, g2⟩ := C95_elbo (K := K) prior s perms b t hb ht (fun _ => 0) f r hM (by rw [hlaw]; simpa using i1.neg)
    (fun i => by rw [hlaw]; exact i2 _)
  rw [hlaw] at g1 g2
  refine ⟨g1, g2.symm ▸ ?_⟩
  refine integral_congr_ae (Filter.Eventually.of_forall fun σ => ?_)
  have e1 : (Measure.pi fun _ : Fin (K + 1) => q) = noise.map fun z k => sampleQ wMean wLogstd (z k) := by
    have := Measure.pi_map_pi (μ := fun _ : Fin (K + 1) => G) (f := fun _ => sampleQ wMean wLogstd) fun _ => (mS _ _).aemeasurable
    rw [show noise = Measure.pi fun _ : Fin (K + 1) => G from rfl, this]
    simp only [hqG]
  have e2 : ∀ l w, lowerBound (K := K + 1) n (fun _ => 0) f r l w = lowerBound n logPrior f (logQ wMean wLogstd) l w := by
    intro l w
    simp only [lowerBound_eq, logJoint, hr]
    congr 1
    refine Finset.sum_congr rfl fun k _ => ?_
    ring
  have e3 : ∀ l : List ((Fin (sizes 0) → ℝ) × ℝ), Measurable fun w => lowerBound (K := K + 1) n logPrior f (logQ wMean wLogstd) l w := by
    intro l
    have hl : ∀ k : Fin (K + 1), Measurable fun w : Fin (K + 1) → Wt L sizes → ℝ => (l.map fun d => f d (w k)).sum := by
      intro k
      induction l with
      | nil => simp
      | cons d l ih =>
        simp only [List.map_cons, List.sum_cons]
        exact ((continuous_logLik hL yLogstd d).measurable.comp (measurable_pi_apply k)).add ih
    simp only [lowerBound_eq, logJoint, mean, List.length_map, logPrior_eq]
    refine (Finset.measurable_fun_sum _ fun k _ => ?_).div_const _
    exact ((((continuous_logQ _ _).measurable.comp (measurable_pi_apply k)).add (((hl k).div_const _).mul_const _)).sub
      ((continuous_logQ _ _).measurable.comp (measurable_pi_apply k)))
  simp only [e2]
  have e4 : Measurable fun (z : Fin (K + 1) → Wt L sizes → ℝ) k => sampleQ wMean wLogstd (z k) :=
    measurable_pi_lambda _ fun k => (mS _ _).comp (measurable_pi_apply k)
  rw [e1, integral_map e4.aemeasurable (e3 _).aestronglyMeasurable]
  rfl

/-- What leaves layer `l` in the model, from the inputs of its units. -/
theorem hidden_net (w : Wt L sizes → ℝ) (x : Fin (sizes 0) → ℝ) (l : ℕ) (m : Fin (sizes l)) :
    hidden w x l m = if l = 0 ∨ L ≤ l then net (wAt w) x l m else max 0 (net (wAt w) x l m) := by
  induction l with
  | zero => simp [hidden, net]
  | succ l ih =>
    have e : (∑ k, wAt w l m k * (Fin.snoc (hidden w x l) 1 : Fin (sizes l + 1) → ℝ) k) / Real.sqrt (sizes l + 1 : ℕ) =
        net (wAt w) x (l + 1) m := by
      rw [net, Fin.sum_univ_castSucc]
      simp only [Fin.snoc_castSucc, Fin.snoc_last, mul_one]
      congr 2
      refine Finset.sum_congr rfl fun k _ => ?_
      by_cases hl : l < L
      · rw [ih k]
        congr 1
        by_cases h0 : l = 0 <;> simp [h0, hl]
      · have : ∀ k, wAt w l m k = 0 := fun k => by rw [wAt, dif_neg hl]
        rw [this, zero_mul, zero_mul]
    simp only [hidden]
    rw [e]
    by_cases h : l + 1 < L
    · rw [if_pos h, if_neg (by omega), max_comm]
    · rw [if_neg h, if_pos (Or.inr (by omega))]

/-- **C95.** The Bayesian neural net of the example, with any layers, data, batch size, number of particles and parameters: the expected
lower bound of a batch, over the shuffle and the noise of the particles, is the logarithm of the evidence of all the labels minus the
divergence of the variational distribution of the weights from their posterior given all the data. -/
theorem C95_bnn (hL : sizes L = 1) (yLogstd : ℝ) (wMean wLogstd : Wt L sizes → ℝ) (s : Arrays n (Fin (sizes 0) → ℝ) ℝ)
    (perms : List (Equiv.Perm (Fin n))) (b t : ℕ) (hb : 0 < b) (ht : t < itersUp n b) :
    let prior : Measure (Wt L sizes → ℝ) := Measure.pi fun _ => gaussianReal 0 1
    let q : Measure (Wt L sizes → ℝ) := Measure.pi fun j => gaussianReal (wMean j) (Uni.sq (Real.exp (wLogstd j)))
    let out : (Wt L sizes → ℝ) → (Fin (sizes 0) → ℝ) → ℝ := fun w x =>
      net (fun l m k => if h : l < L then w ⟨⟨l, h⟩, m, k⟩ else 0) x L ⟨0, by omega⟩
    let lik : (Wt L sizes → ℝ) → ℝ := fun w => ∏ i, gaussianPDFReal (out w (s.x i)) (Uni.sq (Real.exp yLogstd)) (s.y i)
    let noise : Measure (Fin (K + 1) → Wt L sizes → ℝ) := Measure.pi fun _ => Measure.pi fun _ => gaussianReal 0 1
    klDiv q (Grad.posterior prior lik) ≠ ⊤ ∧
    ∫ σ, ∫ z, bnnBound hL yLogstd wMean wLogstd b t ((s.epochs perms).permute σ) z ∂noise ∂uniform n =
      Real.log (Grad.evidence prior lik) - (klDiv q (Grad.posterior prior lik)).toReal := by
  intro prior q out lik noise
  have e : ∀ w x, out w x = yMean hL w x := fun w x => by
    rw [yMean, hidden_net, if_pos (Or.inr le_rfl)]
    rfl
  have el : lik = fun w => ∏ i, gaussianPDFReal (yMean hL w (s.x i)) (Uni.sq (Real.exp yLogstd)) (s.y i) := by
    funext w
    simp only [lik, e]
  rw [el]
  exact bnn_elbo hL yLogstd wMean wLogstd s perms b t hb ht

/-- The net of the script has 13 inputs, one hidden layer of 50 and one output, and the batches have 10 rows; the second of the
iterations on 25 rows. -/
example (s : Arrays 25 (Fin 13 → ℝ) ℝ) (yLogstd : ℝ) :=
  C95_bnn (K := 9) (sizes := fun l => if l = 0 then 13 else if l = 1 then 50 else 1) (L := 2) rfl yLogstd (fun _ => 0) (fun _ => 0) s [] 10 1
    (by norm_num) (by norm_num [itersUp])

end

end ZhuSuan.Minibatch
