import Verif.Model.BernVae
import Verif.Props.Sbn
import Verif.Spec.BernVae

/-!
# C105: the variational autoencoder with binary latent variables
-/

set_option autoImplicit false

open MeasureTheory

namespace ZhuSuan.BernVae

open ZhuSuan.Vae (Dense pixels logLik binarize relu uniforms imageProb logistic exp_logLik imageProb_sum logistic_eq)
open ZhuSuan.Minibatch hiding logLik
open ZhuSuan.Sbn (bits logLikDer klFinite integral_bits measurable_binarize_pair hasDerivAt_bernoulli)

/-! ## Independent finite variables -/

section
variable {R B : Type} [Fintype R] [DecidableEq R] [Fintype B]

/-- A factor of mean zero in one coordinate. -/
theorem sum_coord_zero (w : R → B → ℝ) (r : R) (s : B → ℝ) (hs : ∑ b, w r b * s b = 0) (ψ : (R → B) → ℝ)
    (hψ : ∀ z b, ψ (Function.update z r b) = ψ z) : ∑ z : R → B, (∏ r, w r (z r)) * (s (z r) * ψ z) = 0 := by
  rw [← (Equiv.funSplitAt r B).symm.sum_comp, Fintype.sum_prod_type, Finset.sum_comm]
  refine Finset.sum_eq_zero fun y _ => ?_
  by_cases hB : Nonempty B
  · obtain ⟨b0⟩ := hB
    have e : ∀ b : B, (∏ r', w r' ((Equiv.funSplitAt r B).symm (b, y) r')) * (s ((Equiv.funSplitAt r B).symm (b, y) r) *
        ψ ((Equiv.funSplitAt r B).symm (b, y))) =
        (w r b * s b) * ((∏ r' ∈ Finset.univ.erase r, w r' ((Equiv.funSplitAt r B).symm (b0, y) r')) * ψ ((Equiv.funSplitAt r B).symm (b0, y))) := by
      intro b
      have hr : (Equiv.funSplitAt r B).symm (b, y) r = b := by simp [Equiv.funSplitAt, Equiv.piSplitAt]
      have hu : (Equiv.funSplitAt r B).symm (b, y) = Function.update ((Equiv.funSplitAt r B).symm (b0, y)) r b := by
        funext j
        by_cases hj : j = r
        · subst hj; simp [Equiv.funSplitAt, Equiv.piSplitAt]
        · simp [Equiv.funSplitAt, Equiv.piSplitAt, hj]
      rw [← Finset.mul_prod_erase _ _ (Finset.mem_univ r), hr]
      have h1 : ψ ((Equiv.funSplitAt r B).symm (b, y)) = ψ ((Equiv.funSplitAt r B).symm (b0, y)) := by rw [hu, hψ]
      have h2 : ∏ r' ∈ Finset.univ.erase r, w r' ((Equiv.funSplitAt r B).symm (b, y) r') =
          ∏ r' ∈ Finset.univ.erase r, w r' ((Equiv.funSplitAt r B).symm (b0, y) r') :=
        Finset.prod_congr rfl fun j hj => by
          rw [hu, Function.update_of_ne (Finset.ne_of_mem_erase hj)]
      rw [h1, h2]
      ring
    simp only [e]
    rw [← Finset.sum_mul, hs, zero_mul]
  · rw [not_nonempty_iff] at hB
    simp

/-- The derivative of an expectation of independent variables whose probabilities depend on a parameter. -/
theorem hasDerivAt_expect (l : ℝ → R → B → ℝ) (l' : R → B → ℝ) (hl : ∀ r b, HasDerivAt (fun t => l t r b) (l' r b) 0)
    (φ : ℝ → (R → B) → ℝ) (φ' : (R → B) → ℝ) (hφ : ∀ z, HasDerivAt (fun t => φ t z) (φ' z) 0) :
    HasDerivAt (fun t => ∑ z : R → B, (∏ r, Real.exp (l t r (z r))) * φ t z)
      (∑ z : R → B, (∏ r, Real.exp (l 0 r (z r))) * ((∑ r, l' r (z r)) * φ 0 z + φ' z)) 0 := by
  simp only [← Real.exp_sum]
  refine (HasDerivAt.fun_sum (u := Finset.univ) fun (z : R → B) _ =>
    ((HasDerivAt.fun_sum (u := Finset.univ) fun (r : R) _ => hl r (z r)).exp).mul (hφ z)).congr_deriv ?_
  refine Finset.sum_congr rfl fun z _ => ?_
  ring

theorem pair_sums {R : Type} [Fintype R] [DecidableEq R] (s p q D c dc : R → ℝ) (mm : ℝ) :
    -((∑ r, s r) * ∑ r, (p r - q r)) - ∑ r, (D r - s r) + ∑ r, -((p r - q r - c r) * dc r) -
      ∑ r, (-D r - (p r - q r - c r - mm) * s r - (p r - q r - c r) * dc r) + ∑ r, ∑ r' ∈ Finset.univ.erase r, p r * s r' =
    ∑ r, ∑ r' ∈ Finset.univ.erase r, s r' * q r + ∑ r, s r * (1 - c r - mm) := by
  have e : (∑ r, s r) * ∑ r, (p r - q r) = ∑ r, (s r + ∑ r' ∈ Finset.univ.erase r, s r') * (p r - q r) := by
    rw [Finset.mul_sum]
    exact Finset.sum_congr rfl fun r _ => by rw [Finset.add_sum_erase _ _ (Finset.mem_univ r)]
  rw [e]
  simp only [← Finset.mul_sum, ← Finset.sum_mul, ← Finset.sum_neg_distrib, ← Finset.sum_sub_distrib, ← Finset.sum_add_distrib]
  exact Finset.sum_congr rfl fun r _ => by ring

theorem hasDerivAt_reinforce (l : ℝ → R → B → ℝ) (l' : R → B → ℝ) (hl : ∀ r b, HasDerivAt (fun t => l t r b) (l' r b) 0)
    (hs : ∀ r, ∑ b, Real.exp (l 0 r b) * l' r b = 0) (p : ℝ → (R → B) → R → ℝ) (D : (R → B) → R → ℝ)
    (hp : ∀ z r, HasDerivAt (fun t => p t z r) (D z r) 0) (c : ℝ → R → ℝ) (dc : R → ℝ) (hc : ∀ r, HasDerivAt (fun t => c t r) (dc r) 0)
    (mm n : ℝ) :
    HasDerivAt (fun t => -(∑ z : R → B, (∏ r, Real.exp (l t r (z r))) * ((∑ r, (p t z r - l t r (z r))) / n)) +
        ∑ z : R → B, (∏ r, Real.exp (l 0 r (z r))) * ((∑ r, (p 0 z r - l 0 r (z r) - c t r) ^ 2 / 2) / n))
      (∑ z : R → B, (∏ r, Real.exp (l 0 r (z r))) * ((∑ r, (-D z r - (p 0 z r - l 0 r (z r) - c 0 r - mm) * l' r (z r) -
          (p 0 z r - l 0 r (z r) - c 0 r) * dc r)) / n) -
        (∑ r, ∑ r' ∈ Finset.univ.erase r, ∑ z : R → B, (∏ r, Real.exp (l 0 r (z r))) * (p 0 z r * l' r' (z r'))) / n) 0 := by
  have h1 := hasDerivAt_expect l l' hl (fun t z => (∑ r, (p t z r - l t r (z r))) / n) (fun z => (∑ r, (D z r - l' r (z r))) / n)
    fun z => (HasDerivAt.fun_sum fun r _ => (hp z r).sub (hl r (z r))).div_const _
  have h2 : HasDerivAt (fun t => ∑ z : R → B, (∏ r, Real.exp (l 0 r (z r))) * ((∑ r, (p 0 z r - l 0 r (z r) - c t r) ^ 2 / 2) / n))
      (∑ z : R → B, (∏ r, Real.exp (l 0 r (z r))) * ((∑ r, -((p 0 z r - l 0 r (z r) - c 0 r) * dc r)) / n)) 0 := by
    refine HasDerivAt.fun_sum fun z _ => HasDerivAt.const_mul _ ((HasDerivAt.fun_sum fun r _ => ?_).div_const _)
    refine (((((hc r).const_sub (p 0 z r - l 0 r (z r))).fun_pow 2).div_const 2)).congr_deriv ?_
    norm_num
    ring
  refine (h1.fun_neg.add h2).congr_deriv ?_
  have s1 : ∀ r, ∑ z : R → B, (∏ r, Real.exp (l 0 r (z r))) * (l' r (z r) * (1 - c 0 r - mm)) = 0 := fun r =>
    sum_coord_zero (fun r y => Real.exp (l 0 r y)) r _ (hs r) _ fun _ _ => rfl
  have s2 : ∀ r r', r' ∈ Finset.univ.erase r → ∑ z : R → B, (∏ r, Real.exp (l 0 r (z r))) * (l' r' (z r') * l 0 r (z r)) = 0 := fun r r' hr =>
    sum_coord_zero (fun r y => Real.exp (l 0 r y)) r' _ (hs r') (fun z => l 0 r (z r)) fun z y => by
      rw [Function.update_of_ne (Finset.ne_of_mem_erase hr).symm]
  have s3 : ∑ r, ∑ r' ∈ Finset.univ.erase r, ∑ z : R → B, (∏ r, Real.exp (l 0 r (z r))) * (l' r' (z r') * l 0 r (z r)) = 0 :=
    Finset.sum_eq_zero fun r _ => Finset.sum_eq_zero fun r' hr => s2 r r' hr
  have s4 : ∑ r, ∑ z : R → B, (∏ r, Real.exp (l 0 r (z r))) * (l' r (z r) * (1 - c 0 r - mm)) = 0 := Finset.sum_eq_zero fun r _ => s1 r
  have cc : ∀ G : R → R → (R → B) → ℝ,
      ∑ r, ∑ r' ∈ Finset.univ.erase r, ∑ z, G r r' z = ∑ z, ∑ r, ∑ r' ∈ Finset.univ.erase r, G r r' z := fun G => by
    rw [Finset.sum_comm]
    exact Finset.sum_congr rfl fun r _ => Finset.sum_comm
  rw [cc] at s3 ⊢
  rw [Finset.sum_comm] at s4
  rw [← sub_eq_zero, Finset.sum_div, ← Finset.sum_neg_distrib, ← Finset.sum_add_distrib, ← Finset.sum_sub_distrib, ← Finset.sum_sub_distrib]
  have s5 := congrArg (fun v : ℝ => v / n) (congrArg₂ (· + ·) s3 s4)
  simp only [add_zero, zero_div, ← Finset.sum_add_distrib] at s5
  rw [Finset.sum_div] at s5
  refine Eq.trans (Finset.sum_congr rfl fun z _ => ?_) s5
  have key := pair_sums (fun r => l' r (z r)) (fun r => p 0 z r) (fun r => l 0 r (z r)) (fun r => D z r) (fun r => c 0 r) dc mm
  simp only [← Finset.mul_sum] at key ⊢
  have key2 := congrArg (fun v => (∏ r, Real.exp (l 0 r (z r))) * v / n) key
  rw [Finset.sum_add_distrib, ← Finset.mul_sum, ← Finset.mul_sum, ← mul_add]
  refine Eq.trans ?_ key2
  ring

end

section
variable {K b zd xd : ℕ}

/-- The distribution of the uniform draws for all particles and rows. -/
noncomputable def draws (K b zd : ℕ) : Measure (Fin K × Fin b → Fin zd → ℝ) := Measure.pi fun _ => uniforms (Fin zd)

instance : IsProbabilityMeasure (draws K b zd) := by unfold draws; infer_instance

theorem measurable_draw (a : Fin b → Fin zd → ℝ) : Measurable (draw (K := K) a) :=
  measurable_pi_lambda _ fun r => measurable_binarize_pair (fun _ j => Uni.sigmoid (a r.2 j)) (fun u : Fin K × Fin b → Fin zd → ℝ => u r)
    measurable_const (measurable_pi_apply r)

theorem integral_draws (a : Fin b → Fin zd → ℝ) (φ : (Fin K × Fin b → Fin zd → Bool) → ℝ) :
    ∫ u, φ (draw a u) ∂(draws K b zd) = ∑ z, drawProb (fun r : Fin K × Fin b => a r.2) z * φ z := by
  have hb : ∀ r : Fin K × Fin b, Measurable (bits (a r.2)) := fun r =>
    measurable_binarize_pair (fun _ j => Uni.sigmoid (a r.2 j)) (fun u => u) measurable_const measurable_id
  have h3 := Measure.pi_map_pi (μ := fun _ : Fin K × Fin b => uniforms (Fin zd)) (f := fun r => bits (a r.2)) fun r => (hb r).aemeasurable
  have hp : ∀ r : Fin K × Fin b, IsProbabilityMeasure ((uniforms (Fin zd)).map (bits (a r.2))) := fun r =>
    Measure.isProbabilityMeasure_map (hb r).aemeasurable
  have h4 : (draws K b zd).map (draw a) = Measure.pi fun r : Fin K × Fin b => (uniforms (Fin zd)).map (bits (a r.2)) := h3
  rw [← integral_map (measurable_draw a).aemeasurable (measurable_of_finite φ).aestronglyMeasurable, h4, integral_fintype .of_finite]
  refine Finset.sum_congr rfl fun z _ => ?_
  rw [smul_eq_mul, measureReal_def, Measure.pi_singleton, ENNReal.toReal_prod, drawProb]
  congr 1
  refine Finset.prod_congr rfl fun r _ => ?_
  have h5 := integral_bits (a r.2) fun y => if y = z r then 1 else 0
  simp only [mul_ite, mul_one, mul_zero, Finset.sum_ite_eq', Finset.mem_univ, if_true] at h5
  rw [← h5, ← measureReal_def]
  have h6 : ∫ u, (if bits (a r.2) u = z r then (1 : ℝ) else 0) ∂uniforms (Fin zd) =
      ∫ y, (if y = z r then (1 : ℝ) else 0) ∂(uniforms (Fin zd)).map (bits (a r.2)) :=
    (integral_map (hb r).aemeasurable (measurable_of_finite fun y : Fin zd → Bool => if y = z r then (1 : ℝ) else 0).aestronglyMeasurable).symm
  rw [h6, integral_fintype .of_finite]
  simp

theorem integrable_draws (a : Fin b → Fin zd → ℝ) (φ : (Fin K × Fin b → Fin zd → Bool) → ℝ) :
    Integrable (fun u => φ (draw a u)) (draws K b zd) := by
  refine Integrable.of_bound ((measurable_of_finite φ).comp (measurable_draw a)).aestronglyMeasurable (∑ z, |φ z|)
    (Filter.Eventually.of_forall fun u => ?_)
  rw [Real.norm_eq_abs]
  exact Finset.single_le_sum (f := fun z => |φ z|) (fun z _ => abs_nonneg _) (Finset.mem_univ _)

theorem drawProb_eq (a : Fin b → Fin zd → ℝ) (z : Fin K × Fin b → Fin zd → Bool) :
    drawProb (fun r : Fin K × Fin b => a r.2) z = ∏ r, Real.exp (logLik (a r.2) (z r)) := by
  simp only [drawProb, exp_logLik]

theorem drawProb_pos {R : Type} [Fintype R] (a : R → Fin zd → ℝ) (z : R → Fin zd → Bool) : 0 < drawProb a z :=
  Finset.prod_pos fun _ _ => Sbn.imageProb_pos _ _

theorem drawProb_sum {R : Type} [Fintype R] [DecidableEq R] (a : R → Fin zd → ℝ) : ∑ z, drawProb a z = 1 := by
  unfold drawProb
  rw [← Fintype.prod_sum (fun (r : R) (y : Fin zd → Bool) => imageProb (fun j => logistic (a r j)) y)]
  simp only [imageProb_sum, Finset.prod_const_one]

/-- **C105.** The states are drawn with the probabilities whose logarithm enters the objective. -/
theorem C105_draw (a : Fin b → Fin zd → ℝ) (z : Fin K × Fin b → Fin zd → Bool) :
    (draws K b zd).real {u | draw a u = z} = drawProb (fun r => a r.2) z ∧
      ∑ r, logProb a z r = Real.log (drawProb (fun r : Fin K × Fin b => a r.2) z) := by
  constructor
  · have h := integral_draws a fun y => if y = z then 1 else 0
    simp only [mul_ite, mul_one, mul_zero, Finset.sum_ite_eq', Finset.mem_univ, if_true] at h
    rw [← h]
    have hm : MeasurableSet {u : Fin K × Fin b → Fin zd → ℝ | draw a u = z} := measurable_draw a (measurableSet_singleton z)
    rw [← integral_indicator_one hm]
    refine integral_congr_ae (Filter.Eventually.of_forall fun u => ?_)
    simp only [Set.indicator_apply, Set.mem_ofPred_eq, Pi.one_apply]
  · rw [drawProb_eq, ← Real.exp_sum, Real.log_exp]
    rfl

/-- **C105.** The log joint is the logarithm of the probability of states and images. -/
theorem C105_joint (X : (Fin K × Fin b → Fin zd → Bool) → Fin K × Fin b → Fin xd → ℝ) (x : Fin b → Fin xd → Bool)
    (z : Fin K × Fin b → Fin zd → Bool) : ∑ r, logJoint (X z) x z r = Real.log (jointProb X (fun r => x r.2) z) := by
  have e : jointProb X (fun r => x r.2) z = Real.exp (∑ r, logJoint (X z) x z r) := by
    rw [Real.exp_sum, jointProb]
    refine Finset.prod_congr rfl fun r _ => ?_
    rw [logJoint, Real.exp_add, exp_logLik, exp_logLik]
    congr 1
    have : logistic 0 = 1 / 2 := by norm_num [logistic]
    have e : ∀ d, (if z r d = true then (1 : ℝ) / 2 else 1 - 1 / 2) = 1 / 2 := fun d => by split <;> norm_num
    simp only [imageProb, this, e, Finset.prod_const, Finset.card_univ, Fintype.card_fin]
  rw [e, Real.log_exp]

theorem jointProb_pos {R : Type} [Fintype R] (X : (R → Fin zd → Bool) → R → Fin xd → ℝ) (x : R → Fin xd → Bool) (z : R → Fin zd → Bool) :
    0 < jointProb X x z := Finset.prod_pos fun r _ => mul_pos (by positivity) (Sbn.imageProb_pos _ _)

theorem lowerBound_eq (X : (Fin K × Fin b → Fin zd → Bool) → Fin K × Fin b → Fin xd → ℝ) (a : Fin b → Fin zd → ℝ) (x : Fin b → Fin xd → Bool)
    (u : Fin K × Fin b → Fin zd → ℝ) : lowerBound X a x u =
      (fun z => (∑ r, (logJoint (X z) x z r - logProb a z r)) / (K * b)) (draw a u) := by
  simp only [lowerBound, Grad.elboObjective_val]
  rw [← Finset.sum_div, div_div, Fintype.sum_prod_type_right]
  rfl

/-- **C105.** The expected lower bound, for networks that may mix the rows, as with batch normalization in training: it is the log probability
of the batch, minus the divergence of the variational probabilities of all states from their posterior, per row and particle. -/
theorem C105_bound (X : (Fin K × Fin b → Fin zd → Bool) → Fin K × Fin b → Fin xd → ℝ) (a : Fin b → Fin zd → ℝ) (x : Fin b → Fin xd → Bool) :
    ∫ u, lowerBound X a x u ∂(draws K b zd) = (Real.log (marginal X fun r => x r.2) -
      klFinite (drawProb fun r : Fin K × Fin b => a r.2) (posteriorProb X fun r => x r.2)) / (K * b) := by
  simp only [lowerBound_eq]
  rw [integral_draws a fun z => (∑ r, (logJoint (X z) x z r - logProb a z r)) / (K * b)]
  simp only [← mul_div_assoc]
  rw [← Finset.sum_div]
  congr 1
  have hm : 0 < marginal X fun r : Fin K × Fin b => x r.2 := Finset.sum_pos (fun z _ => jointProb_pos _ _ _) Finset.univ_nonempty
  have e : ∀ z : Fin K × Fin b → Fin zd → Bool, drawProb (fun r => a r.2) z * ∑ r, (logJoint (X z) x z r - logProb a z r) =
      drawProb (fun r => a r.2) z * Real.log (marginal X fun r => x r.2) -
        drawProb (fun r => a r.2) z * Real.log (drawProb (fun r => a r.2) z / posteriorProb X (fun r => x r.2) z) := by
    intro z
    have h1 := jointProb_pos X (fun r => x r.2) z
    have h2 := drawProb_pos (fun r : Fin K × Fin b => a r.2) z
    rw [Finset.sum_sub_distrib, C105_joint, (C105_draw a z).2, posteriorProb, Real.log_div h2.ne' (by positivity), Real.log_div h1.ne' hm.ne']
    ring
  simp only [e]
  rw [Finset.sum_sub_distrib, ← Finset.sum_mul, drawProb_sum, one_mul, klFinite]

/-! ## The gradient -/

theorem hasDerivAt_logLik {k : ℕ} (a : ℝ → Fin k → ℝ) (d : Fin k → ℝ) (ha : ∀ j, HasDerivAt (fun t => a t j) (d j) 0) (x : Fin k → Bool) :
    HasDerivAt (fun t => logLik (a t) x) (logLikDer (a 0) d x) 0 := by
  simp only [logLik, logLikDer]
  refine HasDerivAt.fun_sum fun j _ => ?_
  have h := hasDerivAt_bernoulli (a 0 j) 1 (pixels x j)
  have h2 : HasDerivAt (fun s : ℝ => Uni.Bernoulli.logProb s (pixels x j)) (pixels x j - Uni.sigmoid (a 0 j)) (a 0 j) := by
    have h3 : HasDerivAt (fun s : ℝ => s - a 0 j) 1 (a 0 j) := (hasDerivAt_id _).sub_const _
    have h4 : HasDerivAt (fun t : ℝ => Uni.Bernoulli.logProb (a 0 j + t * 1) (pixels x j)) ((pixels x j - Uni.sigmoid (a 0 j)) * 1)
        (a 0 j - a 0 j) := by rw [sub_self]; exact h
    have h5 := HasDerivAt.comp (h₂ := fun t : ℝ => Uni.Bernoulli.logProb (a 0 j + t * 1) (pixels x j)) (h := fun s : ℝ => s - a 0 j) (a 0 j) h4 h3
    refine (h5.congr_deriv (by ring)).congr_of_eventuallyEq (Filter.Eventually.of_forall fun s => ?_)
    simp
  exact HasDerivAt.comp (h₂ := fun s : ℝ => Uni.Bernoulli.logProb s (pixels x j)) (h := fun t => a t j) 0 h2 (ha j)

theorem score_zero (a d : Fin zd → ℝ) : ∑ y, Real.exp (logLik a y) * logLikDer a d y = 0 := by
  have h1 : ∀ y : Fin zd → Bool, HasDerivAt (fun t : ℝ => Real.exp (logLik (fun j => a j + t * d j) y)) (Real.exp (logLik a y) * logLikDer a d y) 0 := by
    intro y
    have := (hasDerivAt_logLik (fun t j => a j + t * d j) d (fun j => by simpa using ((hasDerivAt_id (0 : ℝ)).mul_const (d j)).const_add (a j)) y).exp
    simpa using this
  have h2 := HasDerivAt.fun_sum (u := Finset.univ) fun y (_ : y ∈ Finset.univ) => h1 y
  have h3 : (fun t : ℝ => ∑ y : Fin zd → Bool, Real.exp (logLik (fun j => a j + t * d j) y)) = fun _ => 1 := by
    funext t
    simp only [exp_logLik, imageProb_sum]
  rw [h3] at h2
  exact h2.unique (hasDerivAt_const _ _)

variable (X : ℝ → (Fin K × Fin b → Fin zd → Bool) → Fin K × Fin b → Fin xd → ℝ)
  (dX : (Fin K × Fin b → Fin zd → Bool) → Fin K × Fin b → Fin xd → ℝ) (a : ℝ → Fin b → Fin zd → ℝ) (da : Fin b → Fin zd → ℝ)
  (c : ℝ → Fin b → ℝ) (dc : Fin b → ℝ) (x : Fin b → Fin xd → Bool)

theorem cost_der (mm : ℝ) (u : Fin K × Fin b → Fin zd → ℝ) : (cost mm (X 0) dX (a 0) da (c 0) dc x u).der =
    (fun z => (∑ r : Fin K × Fin b, (-logLikDer (X 0 z r) (dX z r) (x r.2) -
      (logJoint (X 0 z) x z r - logProb (a 0) z r - c 0 r.2 - mm) * logLikDer (a 0 r.2) (da r.2) (z r) -
        (logJoint (X 0 z) x z r - logProb (a 0) z r - c 0 r.2) * dc r.2)) / (K * b)) (draw (a 0) u) := by
  simp only [cost, Grad.reduceMean_der, Grad.reinforceCost, Grad.C42_baseline_cost, Grad.Dual.der_add, Grad.reinforceCost1_der]
  rw [Fintype.sum_prod_type_right]
  simp only [← add_div, ← Finset.sum_add_distrib]
  rw [← Finset.sum_div, div_div]
  congr 1
  refine Finset.sum_congr rfl fun i _ => Finset.sum_congr rfl fun k _ => ?_
  simp
  ring

/-- **C105.** Along any smooth change of the networks, with `c` the baseline, the expected gradient of the training cost is the derivative of minus
the expected lower bound plus half the mean squared error of the baseline, up to the terms in which the log joint of one row meets the score of
another row. -/
theorem C105_gradient (hX : ∀ z r d, HasDerivAt (fun t => X t z r d) (dX z r d) 0) (ha : ∀ i j, HasDerivAt (fun t => a t i j) (da i j) 0)
    (hc : ∀ i, HasDerivAt (fun t => c t i) (dc i) 0) (mm : ℝ) :
    HasDerivAt (fun t => -(∫ u, lowerBound (X t) (a t) x u ∂(draws K b zd)) +
        ∫ u, (∑ r : Fin K × Fin b, (logJoint (X 0 (draw (a 0) u)) x (draw (a 0) u) r - logProb (a 0) (draw (a 0) u) r - c t r.2) ^ 2 / 2) /
          ((K : ℝ) * b) ∂(draws K b zd))
      (∫ u, (cost mm (X 0) dX (a 0) da (c 0) dc x u).der ∂(draws K b zd) -
        (∑ r : Fin K × Fin b, ∑ r' ∈ Finset.univ.erase r, ∫ u, logJoint (X 0 (draw (a 0) u)) x (draw (a 0) u) r *
          logLikDer (a 0 r'.2) (da r'.2) (draw (a 0) u r') ∂(draws K b zd)) / ((K : ℝ) * b)) 0 := by
  have h := hasDerivAt_reinforce (fun t (r : Fin K × Fin b) y => logLik (a t r.2) y) (fun r y => logLikDer (a 0 r.2) (da r.2) y)
    (fun r y => hasDerivAt_logLik (fun t => a t r.2) (da r.2) (ha r.2) y) (fun r => score_zero _ _)
    (fun t z r => logJoint (X t z) x z r) (fun z r => logLikDer (X 0 z r) (dX z r) (x r.2))
    (fun z r => (hasDerivAt_logLik (fun t => X t z r) (dX z r) (hX z r) (x r.2)).const_add _)
    (fun t r => c t r.2) (fun r => dc r.2) (fun r => hc r.2) mm ((K : ℝ) * b)
  have eB : ∀ t, ∫ u, lowerBound (X t) (a t) x u ∂(draws K b zd) = ∑ z : Fin K × Fin b → Fin zd → Bool, (∏ r, Real.exp (logLik (a t r.2) (z r))) *
      ((∑ r, (logJoint (X t z) x z r - logLik (a t r.2) (z r))) / (K * b)) := fun t => by
    simp only [lowerBound_eq]
    rw [integral_draws (a t) fun z => (∑ r, (logJoint (X t z) x z r - logProb (a t) z r)) / (K * b)]
    simp only [drawProb_eq, logProb]
  have eC : ∀ t, ∫ u, (∑ r : Fin K × Fin b, (logJoint (X 0 (draw (a 0) u)) x (draw (a 0) u) r - logProb (a 0) (draw (a 0) u) r - c t r.2) ^ 2 / 2) /
      ((K : ℝ) * b) ∂(draws K b zd) = ∑ z : Fin K × Fin b → Fin zd → Bool, (∏ r, Real.exp (logLik (a 0 r.2) (z r))) *
        ((∑ r, (logJoint (X 0 z) x z r - logLik (a 0 r.2) (z r) - c t r.2) ^ 2 / 2) / (K * b)) := fun t => by
    rw [integral_draws (a 0) fun z => (∑ r : Fin K × Fin b, (logJoint (X 0 z) x z r - logProb (a 0) z r - c t r.2) ^ 2 / 2) / ((K : ℝ) * b)]
    simp only [drawProb_eq, logProb]
  have eX : ∀ r r' : Fin K × Fin b, ∫ u, logJoint (X 0 (draw (a 0) u)) x (draw (a 0) u) r * logLikDer (a 0 r'.2) (da r'.2) (draw (a 0) u r')
      ∂(draws K b zd) = ∑ z : Fin K × Fin b → Fin zd → Bool, (∏ r, Real.exp (logLik (a 0 r.2) (z r))) *
        (logJoint (X 0 z) x z r * logLikDer (a 0 r'.2) (da r'.2) (z r')) := fun r r' => by
    rw [integral_draws (a 0) fun z => logJoint (X 0 z) x z r * logLikDer (a 0 r'.2) (da r'.2) (z r')]
    simp only [drawProb_eq]
  have eD : ∫ u, (cost mm (X 0) dX (a 0) da (c 0) dc x u).der ∂(draws K b zd) = ∑ z : Fin K × Fin b → Fin zd → Bool,
      (∏ r, Real.exp (logLik (a 0 r.2) (z r))) * ((∑ r : Fin K × Fin b, (-logLikDer (X 0 z r) (dX z r) (x r.2) -
      (logJoint (X 0 z) x z r - logLik (a 0 r.2) (z r) - c 0 r.2 - mm) * logLikDer (a 0 r.2) (da r.2) (z r) -
        (logJoint (X 0 z) x z r - logLik (a 0 r.2) (z r) - c 0 r.2) * dc r.2)) / (K * b)) := by
    simp only [cost_der]
    rw [integral_draws (a 0) fun z => (∑ r : Fin K × Fin b, (-logLikDer (X 0 z r) (dX z r) (x r.2) -
      (logJoint (X 0 z) x z r - logProb (a 0) z r - c 0 r.2 - mm) * logLikDer (a 0 r.2) (da r.2) (z r) -
        (logJoint (X 0 z) x z r - logProb (a 0) z r - c 0 r.2) * dc r.2)) / ((K : ℝ) * b)]
    simp only [drawProb_eq, logProb]
  simp only [eB, eC, eX, eD]
  exact h

/-- **C105.** When the pixels of a row depend on its own states only, the gradient is unbiased, whatever the baseline and the moving mean. Missing:
networks that mix the rows of a batch, as batch normalization in training does (see `C105_biased`). -/
theorem C105_unbiased_partial (hX : ∀ z r d, HasDerivAt (fun t => X t z r d) (dX z r d) 0) (ha : ∀ i j, HasDerivAt (fun t => a t i j) (da i j) 0)
    (hc : ∀ i, HasDerivAt (fun t => c t i) (dc i) 0) (mm : ℝ) (hrow : ∀ z r r' y, r' ≠ r → X 0 (Function.update z r' y) r = X 0 z r) :
    HasDerivAt (fun t => -(∫ u, lowerBound (X t) (a t) x u ∂(draws K b zd)) +
        ∫ u, (∑ r : Fin K × Fin b, (logJoint (X 0 (draw (a 0) u)) x (draw (a 0) u) r - logProb (a 0) (draw (a 0) u) r - c t r.2) ^ 2 / 2) /
          ((K : ℝ) * b) ∂(draws K b zd))
      (∫ u, (cost mm (X 0) dX (a 0) da (c 0) dc x u).der ∂(draws K b zd)) 0 := by
  refine (C105_gradient X dX a da c dc x hX ha hc mm).congr_deriv ?_
  rw [sub_eq_self]
  have e : ∀ r : Fin K × Fin b, ∀ r' ∈ Finset.univ.erase r, ∫ u, logJoint (X 0 (draw (a 0) u)) x (draw (a 0) u) r *
      logLikDer (a 0 r'.2) (da r'.2) (draw (a 0) u r') ∂(draws K b zd) = 0 := by
    intro r r' hr
    have hne := Finset.ne_of_mem_erase hr
    rw [integral_draws (a 0) fun z => logJoint (X 0 z) x z r * logLikDer (a 0 r'.2) (da r'.2) (z r')]
    simp only [drawProb_eq]
    have h := sum_coord_zero (fun (r : Fin K × Fin b) y => Real.exp (logLik (a 0 r.2) y)) r' (fun y => logLikDer (a 0 r'.2) (da r'.2) y)
      (score_zero _ _) (fun z => logJoint (X 0 z) x z r) fun z y => by
        simp only [logJoint]
        rw [Function.update_of_ne hne.symm, hrow z r r' y hne]
    refine Eq.trans (Finset.sum_congr rfl fun z _ => ?_) h
    ring
  rw [Finset.sum_eq_zero fun r _ => Finset.sum_eq_zero (e r), zero_div]

/-! ## Evaluation -/

/-- The networks of one row in evaluation mode. -/
noncomputable def rowOdds {m h k : ℕ} (net : Net m h k) (y : Fin m → Bool) : Fin k → ℝ := net.logits (R := Unit) false (fun _ => pixels y) ()

theorem pixelLogits_row {h : ℕ} (gen : Net zd h xd) (z : Fin K × Fin b → Fin zd → Bool) (r : Fin K × Fin b) :
    gen.pixelLogits false z r = rowOdds gen (z r) := rfl

theorem stateLogits_row {h : ℕ} (q : Net xd h zd) (y : Fin b → Fin xd → Bool) (i : Fin b) : q.stateLogits false y i = rowOdds q (y i) := rfl

theorem klFinite_nonneg {Z : Type} [Fintype Z] (p q : Z → ℝ) (hp : ∀ z, 0 < p z) (hq : ∀ z, 0 < q z) (h : ∑ z, p z = ∑ z, q z) :
    0 ≤ klFinite p q := by
  have e : ∑ z, (p z - q z) ≤ klFinite p q := by
    unfold klFinite
    refine Finset.sum_le_sum fun z _ => ?_
    have h1 := Real.one_sub_inv_le_log_of_pos (div_pos (hp z) (hq z))
    have h2 := mul_le_mul_of_nonneg_left h1 (hp z).le
    have h3 : p z * (1 - (p z / q z)⁻¹) = p z - q z := by
      have := (hp z).ne'
      field_simp
    linarith
  rw [Finset.sum_sub_distrib, h, sub_self] at e
  exact e

theorem rowTerm_pos (odds : (Fin zd → Bool) → Fin xd → ℝ) (y : Fin xd → Bool) (z : Fin zd → Bool) :
    0 < (1 / 2) ^ zd * imageProb (fun d => logistic (odds z d)) y := mul_pos (by positivity) (Sbn.imageProb_pos _ _)

theorem rowProb_pos (odds : (Fin zd → Bool) → Fin xd → ℝ) (y : Fin xd → Bool) : 0 < rowProb odds y :=
  Finset.sum_pos (fun z _ => rowTerm_pos odds y z) Finset.univ_nonempty

theorem logJoint_row (odds : Fin xd → ℝ) (y : Fin xd → Bool) (z : Fin zd → Bool) :
    logLik (fun _ : Fin zd => 0) z + logLik odds y = Real.log ((1 / 2) ^ zd * imageProb (fun d => logistic (odds d)) y) := by
  have e : Real.exp (logLik (fun _ : Fin zd => 0) z + logLik odds y) = (1 / 2) ^ zd * imageProb (fun d => logistic (odds d)) y := by
    rw [Real.exp_add, exp_logLik, exp_logLik]
    congr 1
    have : logistic 0 = 1 / 2 := by norm_num [logistic]
    have e : ∀ d, (if z d = true then (1 : ℝ) / 2 else 1 - 1 / 2) = 1 / 2 := fun d => by split <;> norm_num
    simp only [imageProb, this, e, Finset.prod_const, Finset.card_univ, Fintype.card_fin]
  rw [← e, Real.log_exp]

/-- **C105.** In evaluation mode the rows do not interact: the expected lower bound is the mean over the rows of the log probability of the image
minus the divergence of its variational probabilities from its posterior, and so it is at most the mean log probability. -/
theorem C105_evaluation {h h' : ℕ} (gen : Net zd h xd) (q : Net xd h' zd) (y : Fin b → Fin xd → Bool) (hK : 0 < K) :
    ∫ u, lowerBound (gen.pixelLogits false) (q.stateLogits false y) y u ∂(draws K b zd) =
        (∑ i, (Real.log (rowProb (rowOdds gen) (y i)) -
          klFinite (imageProb fun j => logistic (rowOdds q (y i) j)) (rowPosterior (rowOdds gen) (y i)))) / b ∧
      ∫ u, lowerBound (gen.pixelLogits false) (q.stateLogits false y) y u ∂(draws K b zd) ≤ (∑ i, Real.log (rowProb (rowOdds gen) (y i))) / b := by
  have h1 : ∫ u, lowerBound (gen.pixelLogits false) (q.stateLogits false y) y u ∂(draws K b zd) =
      (∑ i, (Real.log (rowProb (rowOdds gen) (y i)) -
          klFinite (imageProb fun j => logistic (rowOdds q (y i) j)) (rowPosterior (rowOdds gen) (y i)))) / b := by
    let f : Fin b → (Fin zd → Bool) → ℝ := fun i z => logLik (fun _ : Fin zd => 0) z + logLik (rowOdds gen z) (y i) - logLik (rowOdds q (y i)) z
    have e1 : ∀ u, lowerBound (K := K) (gen.pixelLogits false) (q.stateLogits false y) y u =
        (∑ r : Fin K × Fin b, f r.2 (bits (rowOdds q (y r.2)) (u r))) / (K * b) := fun u => by
      rw [lowerBound_eq]; rfl
    have hb : ∀ i, Measurable (bits (rowOdds q (y i))) := fun i =>
      measurable_binarize_pair (fun _ j => Uni.sigmoid (rowOdds q (y i) j)) (fun u => u) measurable_const measurable_id
    have hi : ∀ r : Fin K × Fin b, Integrable (fun v => f r.2 (bits (rowOdds q (y r.2)) v)) (uniforms (Fin zd)) := fun r => by
      refine Integrable.of_bound ((measurable_of_finite (f r.2)).comp (hb r.2)).aestronglyMeasurable (∑ z, |f r.2 z|)
        (Filter.Eventually.of_forall fun u => ?_)
      rw [Real.norm_eq_abs]
      exact Finset.single_le_sum (f := fun z => |f r.2 z|) (fun z _ => abs_nonneg _) (Finset.mem_univ _)
    have e2 : ∀ i, ∫ v, f i (bits (rowOdds q (y i)) v) ∂(uniforms (Fin zd)) = Real.log (rowProb (rowOdds gen) (y i)) -
        klFinite (imageProb fun j => logistic (rowOdds q (y i) j)) (rowPosterior (rowOdds gen) (y i)) := fun i => by
      rw [integral_bits (rowOdds q (y i)) (f i), klFinite, ← one_mul (Real.log (rowProb _ _)), ← imageProb_sum fun j => logistic (rowOdds q (y i) j),
        Finset.sum_mul, ← Finset.sum_sub_distrib]
      refine Finset.sum_congr rfl fun z _ => ?_
      have p1 := rowTerm_pos (rowOdds gen) (y i) z
      have p2 := rowProb_pos (rowOdds gen) (y i)
      have p3 := Sbn.imageProb_pos (rowOdds q (y i)) z
      have e3 : logLik (rowOdds q (y i)) z = Real.log (imageProb (fun j => logistic (rowOdds q (y i) j)) z) := by
        rw [← exp_logLik, Real.log_exp]
      simp only [f]
      rw [logJoint_row, e3, Real.log_div p3.ne' (by unfold rowPosterior; positivity), rowPosterior, Real.log_div p1.ne' p2.ne']
      ring
    simp only [e1]
    rw [integral_div, integral_finsetSum _ fun r _ => by
      have := integrable_comp_eval (μ := fun _ : Fin K × Fin b => uniforms (Fin zd)) (i := r) (hi r)
      exact this]
    have e4 : ∀ r : Fin K × Fin b, ∫ u, f r.2 (bits (rowOdds q (y r.2)) (u r)) ∂(draws K b zd) =
        ∫ v, f r.2 (bits (rowOdds q (y r.2)) v) ∂(uniforms (Fin zd)) := fun r =>
      integral_comp_eval (μ := fun _ : Fin K × Fin b => uniforms (Fin zd)) (i := r) (f := fun v => f r.2 (bits (rowOdds q (y r.2)) v))
        (hi r).aestronglyMeasurable
    simp only [e4, e2]
    rw [Fintype.sum_prod_type]
    have hK' : (K : ℝ) ≠ 0 := by positivity
    simp only [Finset.sum_const, Finset.card_univ, Fintype.card_fin, nsmul_eq_mul]
    rw [mul_div_mul_left _ _ hK']
  refine ⟨h1, h1 ▸ div_le_div_of_nonneg_right (Finset.sum_le_sum fun i _ => sub_le_self _ ?_) (Nat.cast_nonneg _)⟩
  refine klFinite_nonneg _ _ (fun z => Sbn.imageProb_pos _ _) (fun z => div_pos (rowTerm_pos _ _ _) (rowProb_pos _ _)) ?_
  rw [imageProb_sum]
  simp only [rowPosterior]
  rw [← Finset.sum_div, ← rowProb, div_self (rowProb_pos _ _).ne']

/-- **C105.** The printed test value: on average it is the mean over the test images, without the last incomplete batch, of the log probability minus
the divergence, and at most the mean log probability. -/
theorem C105_test {n h h' : ℕ} (gen : Net zd h xd) (q : Net xd h' zd) (x : Fin n → Fin xd → Bool) (b : ℕ) (hb : 0 < b) (hK : 0 < K) :
    let rows : ℕ → Fin b → Fin xd → Bool := fun t i => (batch x b t).getD i fun _ => false
    let printed : ℝ := mean ((List.range (itersDown n b)).map fun t =>
      ∫ u, lowerBound (gen.pixelLogits false) (q.stateLogits false (rows t)) (rows t) u ∂(draws K b zd))
    printed = mean (((List.ofFn x).take (n - n % b)).map fun y => Real.log (rowProb (rowOdds gen) y) -
        klFinite (imageProb fun j => logistic (rowOdds q y j)) (rowPosterior (rowOdds gen) y)) ∧
      printed ≤ mean (((List.ofFn x).take (n - n % b)).map fun y => Real.log (rowProb (rowOdds gen) y)) := by
  intro rows printed
  have hrow : ∀ t ∈ List.range (itersDown n b), ∀ φ : (Fin xd → Bool) → ℝ, (∑ i, φ (rows t i)) / (b : ℝ) = ((batch x b t).map φ).sum /
      ((batch x b t).map φ).length := fun t ht φ => by
    have hl : (batch x b t).length = b := (C92_cover_down x b).2 t (List.mem_range.1 ht)
    have e : batch x b t = List.ofFn (rows t) := by
      refine List.ext_getElem (by simp [hl]) fun k h1 h2 => ?_
      simp [rows, h1]
    rw [List.length_map, hl]
    congr 1
    rw [e, List.map_ofFn, List.sum_ofFn]
    rfl
  constructor
  · rw [← C92_mean_of_means x b hb, meanOfMeans]
    refine congrArg mean (List.map_congr_left fun t ht => ?_)
    rw [(C105_evaluation gen q (rows t) hK).1]
    exact hrow t ht fun y => Real.log (rowProb (rowOdds gen) y) -
        klFinite (imageProb fun j => logistic (rowOdds q y j)) (rowPosterior (rowOdds gen) y)
  · rw [← C92_mean_of_means x b hb, meanOfMeans]
    simp only [printed, mean, List.length_map]
    refine div_le_div_of_nonneg_right (List.sum_le_sum fun t ht => ?_) (Nat.cast_nonneg _)
    refine (C105_evaluation gen q (rows t) hK).2.trans (le_of_eq ?_)
    have := hrow t ht fun y => Real.log (rowProb (rowOdds gen) y)
    simpa using this

/-- The hypotheses of `C105_gradient` hold along any change of the last layers of both networks, in training as in evaluation, and those of
`C105_unbiased_partial` in evaluation mode. -/
example {h h' : ℕ} (gen : Net zd h xd) (q : Net xd h' zd) (dg : Dense h xd) (dq : Dense h' zd) (tr : Bool) (y : Fin b → Fin xd → Bool) :
    (∃ dX : (Fin K × Fin b → Fin zd → Bool) → Fin K × Fin b → Fin xd → ℝ, ∀ (z : Fin K × Fin b → Fin zd → Bool) r d, HasDerivAt (fun t : ℝ => Net.pixelLogits { gen with l3 := ⟨fun i j => gen.l3.kernel i j +
        t * dg.kernel i j, fun j => gen.l3.bias j + t * dg.bias j⟩ } tr z r d) (dX z r d) 0) ∧
      (∃ da : Fin b → Fin zd → ℝ, ∀ i j, HasDerivAt (fun t : ℝ => Net.stateLogits { q with l3 := ⟨fun i j => q.l3.kernel i j + t * dq.kernel i j,
        fun j => q.l3.bias j + t * dq.bias j⟩ } tr y i j) (da i j) 0) ∧
      ∀ (z : Fin K × Fin b → Fin zd → Bool) r r' s, r' ≠ r → gen.pixelLogits false (Function.update z r' s) r = gen.pixelLogits false z r := by
  have hd : ∀ v w : ℝ, HasDerivAt (fun t : ℝ => v + t * w) w 0 := fun v w => by
    simpa using ((hasDerivAt_id (0 : ℝ)).mul_const w).const_add v
  refine ⟨⟨fun z r d => ∑ i, gen.l2.apply tr (gen.l1.apply tr fun r => pixels (z r)) r i * dg.kernel i d + dg.bias d, fun z r d => ?_⟩,
    ⟨fun r d => ∑ i, q.l2.apply tr (q.l1.apply tr fun i => pixels (y i)) r i * dq.kernel i d + dq.bias d, fun i j => ?_⟩, fun z r r' s hr => ?_⟩
  · have := (HasDerivAt.fun_sum (u := Finset.univ) fun i _ => (hd (gen.l3.kernel i d) (dg.kernel i d)).const_mul
      (gen.l2.apply tr (gen.l1.apply tr fun r => pixels (z r)) r i)).fun_add (hd (gen.l3.bias d) (dg.bias d))
    exact this
  · have := (HasDerivAt.fun_sum (u := Finset.univ) fun k _ => (hd (q.l3.kernel k j) (dq.kernel k j)).const_mul
      (q.l2.apply tr (q.l1.apply tr fun i => pixels (y i)) i k)).fun_add (hd (q.l3.bias j) (dq.bias j))
    exact this
  · rw [pixelLogits_row, pixelLogits_row, Function.update_of_ne hr.symm]

/-- A batch of one image with one particle meets the condition of the unbiased gradient, whatever the networks. -/
theorem C105_one_row_partial (X : ℝ → (Fin 1 × Fin 1 → Fin zd → Bool) → Fin 1 × Fin 1 → Fin xd → ℝ)
    (dX : (Fin 1 × Fin 1 → Fin zd → Bool) → Fin 1 × Fin 1 → Fin xd → ℝ) (a : ℝ → Fin 1 → Fin zd → ℝ) (da : Fin 1 → Fin zd → ℝ)
    (c : ℝ → Fin 1 → ℝ) (dc : Fin 1 → ℝ) (x : Fin 1 → Fin xd → Bool)
    (hX : ∀ z r d, HasDerivAt (fun t => X t z r d) (dX z r d) 0) (ha : ∀ i j, HasDerivAt (fun t => a t i j) (da i j) 0)
    (hc : ∀ i, HasDerivAt (fun t => c t i) (dc i) 0) (mm : ℝ) :
    HasDerivAt (fun t => -(∫ u, lowerBound (X t) (a t) x u ∂(draws 1 1 zd)) +
        ∫ u, (∑ r : Fin 1 × Fin 1, (logJoint (X 0 (draw (a 0) u)) x (draw (a 0) u) r - logProb (a 0) (draw (a 0) u) r - c t r.2) ^ 2 / 2) /
          (((1 : ℕ) : ℝ) * (1 : ℕ)) ∂(draws 1 1 zd))
      (∫ u, (cost mm (X 0) dX (a 0) da (c 0) dc x u).der ∂(draws 1 1 zd)) 0 :=
  C105_unbiased_partial X dX a da c dc x hX ha hc mm fun _ r r' _ hr => absurd (Subsingleton.elim r' r) hr

end

/-! ## Batch normalization in training makes the gradient biased -/

/-- A hidden unit with unit weight. -/
def unitLayer : Layer 1 1 := ⟨fun _ _ => 1, fun _ => 1, fun _ => 0, fun _ => 0, fun _ => 1⟩

/-- A generator with one hidden unit per layer and unit weights. -/
def unitGen : Net 1 1 1 := ⟨unitLayer, unitLayer, ⟨fun _ _ => 1, fun _ => 0⟩⟩

/-- A variational net whose last bias moves. -/
def biasNet (t : ℝ) : Net 1 1 1 := ⟨unitLayer, unitLayer, ⟨fun _ _ => 0, fun _ => t⟩⟩

/-- The output of a unit layer from the difference of the two rows. -/
noncomputable def step (v : ℝ) : ℝ := max (v / 2 / Real.sqrt ((v / 2) ^ 2 + 0.001)) 0

theorem step_zero : step 0 = 0 := by simp [step]

theorem step_pos {v : ℝ} (hv : 0 < v) : 0 < step v := lt_max_of_lt_left (by positivity)

theorem step_neg {v : ℝ} (hv : v ≤ 0) : step v = 0 :=
  max_eq_right (div_nonpos_of_nonpos_of_nonneg (by linarith) (Real.sqrt_nonneg _))

theorem unit_apply (a : Fin 1 × Fin 2 → Fin 1 → ℝ) (j : Fin 1) :
    unitLayer.apply true a (0, 0) j = step (a (0, 0) 0 - a (0, 1) 0) ∧ unitLayer.apply true a (0, 1) j = step (a (0, 1) 0 - a (0, 0) 0) := by
  have hv : Dropout.batchVar (unitLayer.matmul a) j = ((a (0, 0) 0 - a (0, 1) 0) / 2) ^ 2 := by
    simp [Dropout.batchVar, Dropout.batchMean, Layer.matmul, unitLayer, Fintype.sum_prod_type, Fin.sum_univ_two]
    ring
  have hm : Dropout.batchMean (unitLayer.matmul a) j = (a (0, 0) 0 + a (0, 1) 0) / 2 := by
    simp [Dropout.batchMean, Layer.matmul, unitLayer, Fintype.sum_prod_type, Fin.sum_univ_two]
  constructor
  · simp only [Layer.apply, relu, Layer.batchNorm, if_true, hv, hm, step]
    simp only [Layer.matmul, unitLayer, Finset.univ_unique, Finset.sum_singleton, mul_one, add_zero]
    congr 2
    simp only [Fin.default_eq_zero]
    ring
  · simp only [Layer.apply, relu, Layer.batchNorm, if_true, hv, hm, step]
    simp only [Layer.matmul, unitLayer, Finset.univ_unique, Finset.sum_singleton, mul_one, add_zero]
    congr 2
    · simp only [Fin.default_eq_zero]
      ring
    · congr 1
      ring

/-- Two bits as the states of two rows. -/
def pairEquiv : Bool × Bool ≃ (Fin 1 × Fin 2 → Fin 1 → Bool) where
  toFun p := fun r _ => if r.2 = 0 then p.1 else p.2
  invFun z := (z (0, 0) 0, z (0, 1) 0)
  left_inv p := by simp
  right_inv z := by
    funext r j
    obtain ⟨k, i⟩ := r
    fin_cases k; fin_cases i <;> fin_cases j <;> simp

/-- The logit of a row in which the hidden units see the two states. -/
noncomputable def mixed (p q : ℝ) : ℝ := step (step (p - q) - step (q - p))

theorem unitGen_logits (p : Bool × Bool) (j : Fin 1) :
    unitGen.pixelLogits true (pairEquiv p) (0, 0) j = mixed (if p.1 then 1 else 0) (if p.2 then 1 else 0) ∧
      unitGen.pixelLogits true (pairEquiv p) (0, 1) j = mixed (if p.2 then 1 else 0) (if p.1 then 1 else 0) := by
  constructor
  · simp [Net.pixelLogits, Net.logits, unitGen, Dense.apply, unit_apply, pixels, pairEquiv, mixed]
  · simp [Net.pixelLogits, Net.logits, unitGen, Dense.apply, unit_apply, pixels, pairEquiv, mixed]

theorem mixed_values : mixed 1 1 = 0 ∧ mixed 0 0 = 0 ∧ mixed 0 1 = 0 ∧ 0 < mixed 1 0 := by
  have h1 := step_pos (one_pos)
  refine ⟨by simp [mixed, step_zero], by simp [mixed, step_zero], ?_, ?_⟩
  · unfold mixed
    rw [step_neg (v := 0 - 1) (by norm_num)]
    exact step_neg (by rw [sub_zero (1 : ℝ)]; linarith)
  · unfold mixed
    rw [step_neg (v := 0 - 1) (by norm_num)]
    exact step_pos (by rw [sub_zero (1 : ℝ)]; linarith)

/-- The last bias of the variational net is the logit of every state. -/
theorem biasNet_logits (t : ℝ) (x : Fin 2 → Fin 1 → Bool) (i : Fin 2) (j : Fin 1) : (biasNet t).stateLogits true x i j = t := by
  simp [Net.stateLogits, Net.logits, biasNet, Dense.apply]

theorem biasNet_fun (t : ℝ) (x : Fin 2 → Fin 1 → Bool) : (biasNet t).stateLogits true x = fun _ _ => t := by
  funext i j
  exact biasNet_logits t x i j

/-- **C105.** The expected gradient in training is not the gradient of the expected lower bound: for two images of one pixel, one state per image, a
generator of unit weights and a variational net whose last bias moves, the derivative of minus the expected lower bound is larger than the expected
derivative of the cost, whatever the baseline and the moving mean. -/
theorem C105_biased (c : Fin 2 → ℝ) (mm : ℝ) :
    let x : Fin 2 → Fin 1 → Bool := fun _ _ => true
    (∀ i j, HasDerivAt (fun t => (biasNet t).stateLogits true x i j) 1 0) ∧
      ∃ v, HasDerivAt (fun t => -(∫ u, lowerBound (K := 1) (unitGen.pixelLogits true) ((biasNet t).stateLogits true x) x u ∂(draws 1 2 1))) v 0 ∧
        ∫ u, (cost (K := 1) mm (unitGen.pixelLogits true) (fun _ _ _ => 0) ((biasNet 0).stateLogits true x) (fun _ _ => 1) c (fun _ => 0) x u).der
          ∂(draws 1 2 1) < v := by
  intro x
  have ha : ∀ i j, HasDerivAt (fun t => (biasNet t).stateLogits true x i j) 1 0 := fun i j => by
    simp only [biasNet_logits]
    exact hasDerivAt_id 0
  refine ⟨ha, ?_⟩
  have h := C105_gradient (K := 1) (fun _ => unitGen.pixelLogits true) (fun _ _ _ => 0) (fun t => (biasNet t).stateLogits true x) (fun _ _ => 1)
    (fun _ => c) (fun _ => 0) x (fun _ _ _ => hasDerivAt_const _ _) ha (fun _ => hasDerivAt_const _ _) mm
  have h' := (h.sub_const (∫ u, (∑ r : Fin 1 × Fin 2, (logJoint (unitGen.pixelLogits true (draw ((biasNet 0).stateLogits true x) u)) x
    (draw ((biasNet 0).stateLogits true x) u) r - logProb ((biasNet 0).stateLogits true x) (draw ((biasNet 0).stateLogits true x) u) r -
      c r.2) ^ 2 / 2) / (((1 : ℕ) : ℝ) * (2 : ℕ)) ∂(draws 1 2 1)))
  simp only [add_sub_cancel_right] at h'
  refine ⟨_, h', ?_⟩
  rw [lt_sub_iff_add_lt, add_lt_iff_neg_left]
  have hx : ∀ r r' : Fin 1 × Fin 2, ∫ u, logJoint (unitGen.pixelLogits true (draw ((biasNet 0).stateLogits true x) u)) x
      (draw ((biasNet 0).stateLogits true x) u) r * logLikDer ((biasNet 0).stateLogits true x r'.2) (fun _ => 1)
        (draw ((biasNet 0).stateLogits true x) u r') ∂(draws 1 2 1) = ∑ p : Bool × Bool, 1 / 4 * (logJoint (unitGen.pixelLogits true (pairEquiv p)) x
          (pairEquiv p) r * logLikDer (fun _ : Fin 1 => 0) (fun _ => 1) (pairEquiv p r')) := fun r r' => by
    rw [integral_draws _ fun z => logJoint (unitGen.pixelLogits true z) x z r * logLikDer ((biasNet 0).stateLogits true x r'.2) (fun _ => 1) (z r'),
      ← pairEquiv.sum_comp, biasNet_fun]
    refine Finset.sum_congr rfl fun p _ => ?_
    congr 1
    have e : ∀ y : Fin 1 → Bool, imageProb (fun _ : Fin 1 => logistic 0) y = 1 / 2 := fun y => by
      simp only [imageProb, logistic]
      simp
      norm_num
    simp only [drawProb, e]
    norm_num [Fintype.sum_prod_type]
  have hj : ∀ (p : Bool × Bool) (r : Fin 1 × Fin 2), logJoint (unitGen.pixelLogits true (pairEquiv p)) x (pairEquiv p) r =
      Real.log (1 / 2 * logistic (unitGen.pixelLogits true (pairEquiv p) r 0)) := fun p r => by
    rw [logJoint, logJoint_row]
    simp [imageProb, x]
  have hs : ∀ y : Fin 1 → Bool, logLikDer (fun _ : Fin 1 => 0) (fun _ => 1) y = if y 0 then 1 / 2 else -(1 / 2) := fun y => by
    have : Uni.sigmoid 0 = 1 / 2 := by rw [← logistic_eq]; norm_num [logistic]
    simp only [logLikDer, pixels, this, Finset.univ_unique, Finset.sum_singleton, Fin.default_eq_zero]
    split <;> norm_num
  have e0 : (Finset.univ : Finset (Fin 1 × Fin 2)).erase (0, 0) = {(0, 1)} := by decide
  have e1 : (Finset.univ : Finset (Fin 1 × Fin 2)).erase (0, 1) = {(0, 0)} := by decide
  obtain ⟨m1, m2, m3, m4⟩ := mixed_values
  simp only [hx, hj, hs]
  rw [Fintype.sum_prod_type, Fin.sum_univ_one, Fin.sum_univ_two, e0, e1, Finset.sum_singleton, Finset.sum_singleton]
  simp only [Fintype.sum_prod_type, Fintype.sum_bool, (unitGen_logits _ _).1, (unitGen_logits _ _).2, if_true, m1]
  have hl : Real.log (1 / 2 * logistic 0) < Real.log (1 / 2 * logistic (mixed 1 0)) := by
    refine Real.log_lt_log (by unfold logistic; positivity) (mul_lt_mul_of_pos_left ?_ (by norm_num))
    unfold logistic
    exact inv_strictAnti₀ (by positivity) (by simpa using m4)
  simp [pairEquiv, m2, m3]
  norm_num at hl ⊢
  linarith

end ZhuSuan.BernVae
