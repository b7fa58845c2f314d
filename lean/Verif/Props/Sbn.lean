import Verif.Model.Sbn
import Verif.Props.IwTight
import Verif.Props.ScoreEst
import Verif.Props.Vae

/-!
# Sigmoid belief nets (C101)
-/

set_option autoImplicit false

open MeasureTheory ProbabilityTheory

namespace ZhuSuan.Sbn

open ZhuSuan.Vae ZhuSuan.Grad ZhuSuan.Minibatch

section
variable {h xd K n : ℕ}

/-- The independent uniform draws of a particle. -/
noncomputable def drawsLaw (h : ℕ) : Measure (Draws h) := (uniforms (Fin h)).prod ((uniforms (Fin h)).prod (uniforms (Fin h)))

instance : IsProbabilityMeasure (uniforms (Fin h)) := by
  have hp : IsProbabilityMeasure ((volume : Measure ℝ).restrict (Set.Ico (0 : ℝ) 1)) := ⟨by simp⟩
  unfold uniforms
  infer_instance

instance : IsProbabilityMeasure (drawsLaw h) := by unfold drawsLaw; infer_instance

/-- The draws of the particles of an image. -/
noncomputable def particles (h K : ℕ) : Measure (Fin K → Draws h) := Measure.pi fun _ => drawsLaw h

instance : IsProbabilityMeasure (particles h K) := by unfold particles; infer_instance

/-! ## Probabilities -/

/-- The log odds that a layer gives to the units of the next one. -/
noncomputable def odds {m k : ℕ} (l : Dense m k) (b : Fin m → Bool) : Fin k → ℝ := fun j => ∑ i, (if b i then 1 else 0) * l.kernel i j + l.bias j

theorem apply_pixels {m k : ℕ} (l : Dense m k) (b : Fin m → Bool) : l.apply (pixels b) = odds l b := rfl

theorem imageProb_pos {k : ℕ} (a : Fin k → ℝ) (b : Fin k → Bool) : 0 < imageProb (fun j => logistic (a j)) b := by
  rw [← exp_logLik]
  exact Real.exp_pos _

theorem exp_logJoint (g : Gen h xd) (x : Fin xd → Bool) (z : Latent h) :
    Real.exp (g.logJoint x z) = jointProb (odds g.l2) (odds g.l1) (odds g.lx) z x := by
  unfold Gen.logJoint jointProb
  simp only [Real.exp_add, exp_logLik, apply_pixels]
  congr 3
  have : logistic 0 = 1 / 2 := by norm_num [logistic]
  simp only [imageProb, this]
  have e : ∀ d, (if z.2.2 d = true then (1 : ℝ) / 2 else 1 - 1 / 2) = 1 / 2 := fun d => by split <;> norm_num
  simp only [e, Finset.prod_const, Finset.card_univ, Fintype.card_fin]

theorem exp_logProb (q : QNet xd h) (x : Fin xd → Bool) (z : Latent h) :
    Real.exp (q.logProb x z) = upProb (odds q.l1 x) (odds q.l2) (odds q.l3) z := by
  unfold QNet.logProb upProb
  simp only [Real.exp_add, exp_logLik, apply_pixels]

theorem upProb_sum (c1 : Fin h → ℝ) (c2 c3 : (Fin h → Bool) → Fin h → ℝ) : ∑ z, upProb c1 c2 c3 z = 1 := by
  simp only [upProb, Fintype.sum_prod_type, ← Finset.mul_sum, imageProb_sum, mul_one]

theorem logProb_sum (q : QNet xd h) (x : Fin xd → Bool) : ∑ z, Real.exp (q.logProb x z) = 1 := by
  simp only [exp_logProb, upProb_sum]

theorem marginal_pos (g : Gen h xd) (x : Fin xd → Bool) : 0 < marginal (odds g.l2) (odds g.l1) (odds g.lx) x := by
  unfold marginal
  simp only [← exp_logJoint]
  exact Finset.sum_pos (fun z _ => Real.exp_pos _) Finset.univ_nonempty

/-- **C101.** The model is a distribution of states and images in which all have positive probability, and the log joint is the logarithm of
its probabilities. -/
theorem C101_model (g : Gen h xd) :
    (∀ x z, g.logJoint x z = Real.log (jointProb (odds g.l2) (odds g.l1) (odds g.lx) z x)) ∧
    (∀ z x, 0 < jointProb (odds g.l2) (odds g.l1) (odds g.lx) z x) ∧ ∑ x, marginal (odds g.l2) (odds g.l1) (odds g.lx) x = 1 := by
  refine ⟨fun x z => by rw [← exp_logJoint, Real.log_exp], fun z x => by rw [← exp_logJoint]; exact Real.exp_pos _, ?_⟩
  unfold marginal
  rw [Finset.sum_comm]
  have e : ∀ z : Latent h, ∑ x, jointProb (odds g.l2) (odds g.l1) (odds g.lx) z x =
      (1 / 2) ^ h * imageProb (fun j => logistic (odds g.l2 z.2.2 j)) z.2.1 * imageProb (fun j => logistic (odds g.l1 z.2.1 j)) z.1 := fun z => by
    simp only [jointProb, ← Finset.mul_sum, imageProb_sum, mul_one]
  simp only [e, Fintype.sum_prod_type]
  rw [Finset.sum_comm]
  have e2 : ∀ y : Fin h → Bool, ∑ x : Fin h → Bool, ∑ w : Fin h → Bool, (1 / 2 : ℝ) ^ h * imageProb (fun j => logistic (odds g.l2 w j)) y *
      imageProb (fun j => logistic (odds g.l1 y j)) x = ∑ w : Fin h → Bool, (1 / 2 : ℝ) ^ h * imageProb (fun j => logistic (odds g.l2 w j)) y := fun y => by
    rw [Finset.sum_comm]
    refine Finset.sum_congr rfl fun w _ => ?_
    rw [← Finset.mul_sum, imageProb_sum, mul_one]
  simp only [e2]
  rw [Finset.sum_comm]
  simp only [← Finset.mul_sum, imageProb_sum, mul_one, Finset.sum_const, Finset.card_univ, Fintype.card_pi, Fintype.card_bool,
    Finset.prod_const, Fintype.card_fin, nsmul_eq_mul]
  rw [Nat.cast_pow, ← mul_pow]
  norm_num

/-! ## The draws -/

theorem measurable_binarize_pair {α : Type} [MeasurableSpace α] {k : ℕ} (p : α → Fin k → ℝ) (u : α → Fin k → ℝ) (hp : Measurable p) (hu : Measurable u) :
    Measurable fun a => binarize (p a) (u a) := by
  refine measurable_pi_lambda _ fun d => measurable_to_bool ?_
  have : (fun a => binarize (p a) (u a) d) ⁻¹' {true} = {a | u a d < p a d} := by ext a; simp [binarize]
  rw [this]
  exact measurableSet_lt ((measurable_pi_apply d).comp hu) ((measurable_pi_apply d).comp hp)

theorem measurable_bits {α : Type} [MeasurableSpace α] {m k : ℕ} (l : Dense m k) (b : α → Fin m → Bool) (u : α → Fin k → ℝ) (hb : Measurable b)
    (hu : Measurable u) : Measurable fun a => bits (l.apply (pixels (b a))) (u a) := by
  unfold bits
  exact measurable_binarize_pair (fun a j => Uni.sigmoid (l.apply (pixels (b a)) j)) u
    ((measurable_of_finite fun b : Fin m → Bool => fun j => Uni.sigmoid (l.apply (pixels b) j)).comp hb) hu

theorem measurable_draw (q : QNet xd h) (x : Fin xd → Bool) : Measurable (q.draw x) := by
  have m1 : Measurable fun u : Draws h => bits (q.l1.apply (pixels x)) u.1 := measurable_bits q.l1 (fun _ => x) _ measurable_const measurable_fst
  have m2 := measurable_bits q.l2 _ (fun u : Draws h => u.2.1) m1 (measurable_fst.comp measurable_snd)
  have m3 := measurable_bits q.l3 _ (fun u : Draws h => u.2.2) m2 (measurable_snd.comp measurable_snd)
  exact m1.prodMk (m2.prodMk m3)

theorem integral_bits {k : ℕ} (a : Fin k → ℝ) (φ : (Fin k → Bool) → ℝ) :
    ∫ u, φ (bits a u) ∂(uniforms (Fin k)) = ∑ b, imageProb (fun j => logistic (a j)) b * φ b := by
  have := integral_binarize (fun j => Uni.sigmoid (a j)) (fun j => ⟨(Uni.sigmoid_pos _).le, (Uni.sigmoid_lt_one _).le⟩) φ
  simp only [logistic_eq]
  exact this

theorem integral_draw (q : QNet xd h) (x : Fin xd → Bool) (φ : Latent h → ℝ) :
    ∫ u, φ (q.draw x u) ∂(drawsLaw h) = ∑ z, Real.exp (q.logProb x z) * φ z := by
  have hint : ∀ {α : Type} [MeasurableSpace α] (P : Measure α) [IsProbabilityMeasure P] (f : α → Latent h) (_ : Measurable f),
      Integrable (fun a => φ (f a)) P := fun P _ f hf => by
    refine Integrable.of_bound ((measurable_of_finite φ).comp hf).aestronglyMeasurable (∑ z, |φ z|) (Filter.Eventually.of_forall fun a => ?_)
    rw [Real.norm_eq_abs]
    exact Finset.single_le_sum (f := fun z => |φ z|) (fun z _ => abs_nonneg _) (Finset.mem_univ (f a))
  have i1 := hint (drawsLaw h) (q.draw x) (measurable_draw q x)
  unfold drawsLaw at i1 ⊢
  rw [integral_prod _ i1]
  have e : ∀ u1 : Fin h → ℝ, ∫ v, φ (q.draw x (u1, v)) ∂((uniforms (Fin h)).prod (uniforms (Fin h))) =
      ∑ b2, imageProb (fun j => logistic (odds q.l2 (bits (odds q.l1 x) u1) j)) b2 *
        ∑ b3, imageProb (fun j => logistic (odds q.l3 b2 j)) b3 * φ (bits (odds q.l1 x) u1, b2, b3) := fun u1 => by
    have i2 := hint ((uniforms (Fin h)).prod (uniforms (Fin h))) (fun v => q.draw x (u1, v)) ((measurable_draw q x).comp measurable_prodMk_left)
    rw [integral_prod _ i2]
    have e3 : ∀ u2 : Fin h → ℝ, ∫ u3, φ (q.draw x (u1, u2, u3)) ∂(uniforms (Fin h)) =
        ∑ b3, imageProb (fun j => logistic (odds q.l3 (bits (odds q.l2 (bits (odds q.l1 x) u1)) u2) j)) b3 *
          φ (bits (odds q.l1 x) u1, bits (odds q.l2 (bits (odds q.l1 x) u1)) u2, b3) := fun u2 =>
      integral_bits (odds q.l3 (bits (odds q.l2 (bits (odds q.l1 x) u1)) u2)) fun b3 => φ (bits (odds q.l1 x) u1, bits (odds q.l2 (bits (odds q.l1 x) u1)) u2, b3)
    simp only [e3]
    exact integral_bits (odds q.l2 (bits (odds q.l1 x) u1)) fun b2 => ∑ b3, imageProb (fun j => logistic (odds q.l3 b2 j)) b3 * φ (bits (odds q.l1 x) u1, b2, b3)
  simp only [e]
  refine (integral_bits (odds q.l1 x) fun b1 => ∑ b2, imageProb (fun j => logistic (odds q.l2 b1 j)) b2 *
        ∑ b3, imageProb (fun j => logistic (odds q.l3 b2 j)) b3 * φ (b1, b2, b3)).trans ?_
  simp only [exp_logProb, upProb, Fintype.sum_prod_type, Finset.mul_sum, mul_assoc]

/-- **C101.** The states are drawn upwards, layer by layer, with the probabilities of which the code takes the logarithm. -/
theorem C101_draw (q : QNet xd h) (x : Fin xd → Bool) (z : Latent h) :
    (drawsLaw h).real {u | q.draw x u = z} = upProb (odds q.l1 x) (odds q.l2) (odds q.l3) z ∧
    q.logProb x z = Real.log (upProb (odds q.l1 x) (odds q.l2) (odds q.l3) z) := by
  rw [← exp_logProb, Real.log_exp]
  refine ⟨?_, rfl⟩
  have := integral_draw q x fun y => if y = z then 1 else 0
  simp only [mul_ite, mul_one, mul_zero, Finset.sum_ite_eq', Finset.mem_univ, if_true] at this
  rw [← this]
  have hm : MeasurableSet {u | q.draw x u = z} := measurable_draw q x (measurableSet_singleton z)
  rw [show (fun u => if q.draw x u = z then (1 : ℝ) else 0) = {u | q.draw x u = z}.indicator fun _ => 1 from by
    funext u; simp [Set.indicator_apply], integral_indicator_const _ hm]
  simp

theorem isProb (q : QNet xd h) (x : Fin xd → Bool) : IsProbabilityMeasure (law (Measure.count : Measure (Latent h)) fun z => Real.exp (q.logProb x z)) :=
  isProb_count _ (fun _ => (Real.exp_pos _).le) (logProb_sum q x)

theorem draw_law (q : QNet xd h) (x : Fin xd → Bool) : (drawsLaw h).map (q.draw x) = law Measure.count fun z => Real.exp (q.logProb x z) := by
  have h1 := isProb q x
  have h2 : IsProbabilityMeasure ((drawsLaw h).map (q.draw x)) := Measure.isProbabilityMeasure_map (measurable_draw q x).aemeasurable
  refine Measure.ext_of_singleton fun z => ?_
  rw [Measure.map_apply (measurable_draw q x) (measurableSet_singleton z), law, withDensity_apply _ (measurableSet_singleton z)]
  simp only [Measure.restrict_singleton, Measure.count_singleton, one_smul, lintegral_dirac]
  have := (C101_draw q x z).1
  rw [← exp_logProb] at this
  rw [← this, measureReal_def, ENNReal.ofReal_toReal (measure_ne_top _ _)]
  rfl

theorem particles_law (q : QNet xd h) (x : Fin xd → Bool) (K : ℕ) :
    (particles h K).map (fun u k => q.draw x (u k)) = samples Measure.count (fun z => Real.exp (q.logProb x z)) K := by
  have h2 : IsProbabilityMeasure ((drawsLaw h).map (q.draw x)) := Measure.isProbabilityMeasure_map (measurable_draw q x).aemeasurable
  unfold particles samples
  rw [Measure.pi_map_pi fun _ => (measurable_draw q x).aemeasurable]
  simp only [draw_law]

theorem integral_particles (q : QNet xd h) (x : Fin xd → Bool) (φ : (Fin K → Latent h) → ℝ) :
    ∫ u, φ (fun k => q.draw x (u k)) ∂(particles h K) = ∫ z, φ z ∂(samples Measure.count (fun z => Real.exp (q.logProb x z)) K) := by
  have hm : Measurable fun (u : Fin K → Draws h) k => q.draw x (u k) :=
    measurable_pi_lambda _ fun k => (measurable_draw q x).comp (measurable_pi_apply k)
  rw [← particles_law, integral_map hm.aemeasurable (measurable_of_finite φ).aestronglyMeasurable]

theorem integrable_particles (q : QNet xd h) (x : Fin xd → Bool) (φ : (Fin K → Latent h) → ℝ) :
    Integrable (fun u => φ (fun k => q.draw x (u k))) (particles h K) := by
  have hm : Measurable fun (u : Fin K → Draws h) k => q.draw x (u k) :=
    measurable_pi_lambda _ fun k => (measurable_draw q x).comp (measurable_pi_apply k)
  refine Integrable.of_bound ((measurable_of_finite φ).comp hm).aestronglyMeasurable (∑ z, |φ z|) (Filter.Eventually.of_forall fun a => ?_)
  rw [Real.norm_eq_abs]
  exact Finset.single_le_sum (f := fun z => |φ z|) (fun z _ => abs_nonneg _) (Finset.mem_univ _)

/-! ## The bound -/

theorem latentModel (g : Gen h xd) (q : QNet xd h) (x : Fin xd → Bool) :
    LatentModel (Measure.count : Measure (Latent h)) (fun z => Real.exp (g.logJoint x z)) (fun z => Real.exp (q.logProb x z)) ∧
      Integrable (fun z => Real.log (Real.exp (g.logJoint x z)) - Real.log (Real.exp (q.logProb x z)))
        (law (Measure.count : Measure (Latent h)) fun z => Real.exp (q.logProb x z)) :=
  finite_model (fun z => Real.exp (g.logJoint x z)) (fun z => Real.exp (q.logProb x z)) (fun _ => Real.exp_pos _) (fun _ => Real.exp_pos _)
    (logProb_sum q x)

theorem evidence_eq (g : Gen h xd) (x : Fin xd → Bool) :
    evidence (Measure.count : Measure (Latent h)) (fun z => Real.exp (g.logJoint x z)) = marginal (odds g.l2) (odds g.l1) (odds g.lx) x := by
  rw [evidence, integral_count, marginal]
  simp only [exp_logJoint]

theorem rowIw_eq (g : Gen h xd) (q : QNet xd h) (x : Fin xd → Bool) (u : Fin (K + 1) → Draws h) :
    rowIw g q x u = (fun z : Fin (K + 1) → Latent h =>
      (iwObjective (fun k => .const (g.logJoint x (z k))) (fun k => .const (q.logProb x (z k)))).val) fun k => q.draw x (u k) := by
  simp only [rowIw, iwObjective_val, logp, logq]
  rfl

theorem expected_iw (g : Gen h xd) (q : QNet xd h) (x : Fin xd → Bool) (K : ℕ) :
    ∫ u, rowIw g q x u ∂(particles h (K + 1)) = ∫ z : Fin (K + 1) → Latent h,
      (iwObjective (fun k => .const (g.logJoint x (z k))) (fun k => .const (q.logProb x (z k)))).val
        ∂(samples Measure.count (fun z => Real.exp (q.logProb x z)) (K + 1)) := by
  simp only [rowIw_eq]
  exact integral_particles q x fun z =>
    (iwObjective (fun k => .const (g.logJoint x (z k))) (fun k => .const (q.logProb x (z k)))).val

theorem rowIw_int (g : Gen h xd) (q : QNet xd h) (x : Fin xd → Bool) (K : ℕ) : Integrable (rowIw g q x) (particles h (K + 1)) := by
  have : rowIw (K := K) g q x = fun u => _ := funext fun u => rowIw_eq g q x u
  rw [this]
  exact integrable_particles q x fun z =>
    (iwObjective (fun k => .const (g.logJoint x (z k))) (fun k => .const (q.logProb x (z k)))).val

/-- **C101.** The expected bound of an image is at most the log probability of the image, does not get worse with more particles and tends to
the log probability: so the "test log likelihood", which is the bound with 1000 particles, is too small on average, and the less the more
particles are used. -/
theorem C101_bound (g : Gen h xd) (q : QNet xd h) (x : Fin xd → Bool) :
    (∀ K, ∫ u, rowIw g q x u ∂(particles h (K + 1)) ≤ Real.log (marginal (odds g.l2) (odds g.l1) (odds g.lx) x)) ∧
    (Monotone fun K => ∫ u, rowIw g q x u ∂(particles h (K + 1))) ∧
    Filter.Tendsto (fun K => ∫ u, rowIw g q x u ∂(particles h (K + 1))) Filter.atTop
      (nhds (Real.log (marginal (odds g.l2) (odds g.l1) (odds g.lx) x))) := by
  rw [← evidence_eq]
  simp only [expected_iw g q x]
  obtain ⟨hM, hi⟩ := latentModel g q x
  have hp : ∀ z, (Dual.const (g.logJoint x z)).val = Real.log (Real.exp (g.logJoint x z)) := fun z => (Real.log_exp _).symm
  have hq : ∀ z, (Dual.const (q.logProb x z)).val = Real.log (Real.exp (q.logProb x z)) := fun z => (Real.log_exp _).symm
  have a1 := C40_le_evidence (logp := fun z => Dual.const (g.logJoint x z)) (logq := fun z => Dual.const (q.logProb x z)) hM hp hq hi
  have a2 := C40_monotone (logp := fun z => Dual.const (g.logJoint x z)) (logq := fun z => Dual.const (q.logProb x z)) hM hp hq hi
  have a3 := C40_tight (logp := fun z => Dual.const (g.logJoint x z)) (logq := fun z => Dual.const (q.logProb x z)) hM
    (fun z h0 => absurd h0 (Real.exp_pos _).ne') hp hq hi
  exact ⟨a1, a2, a3⟩

/-! ## Gradients -/

theorem hasDerivAt_bernoulli (a d b : ℝ) : HasDerivAt (fun t : ℝ => Uni.Bernoulli.logProb (a + t * d) b) ((b - Uni.sigmoid a) * d) 0 := by
  have e : (fun t : ℝ => Uni.Bernoulli.logProb (a + t * d) b) = fun t => b * (a + t * d) - Real.log (1 + Real.exp (a + t * d)) := by
    funext t
    rw [Uni.Bernoulli.logProb, Uni.sigmoidCrossEntropy_eq, Uni.softplus]
    ring
  rw [e]
  have h1 : HasDerivAt (fun t : ℝ => a + t * d) d 0 := by simpa using ((hasDerivAt_id (0 : ℝ)).mul_const d).const_add a
  have h2 := ((h1.exp).const_add 1).log (by positivity)
  refine ((h1.const_mul b).sub h2).congr_deriv ?_
  have hp : 0 < Real.exp a := Real.exp_pos a
  simp only [zero_mul, add_zero, Uni.sigmoid, Real.exp_neg]
  field_simp
  ring

theorem hasDerivAt_layer {m k : ℕ} (l d : Dense m k) (b : Fin m → Bool) (x : Fin k → Bool) :
    HasDerivAt (fun t => logLik ((moveDense l d t).apply (pixels b)) x) (logLikDer (l.apply (pixels b)) (d.apply (pixels b)) x) 0 := by
  have e : ∀ t j, (moveDense l d t).apply (pixels b) j = l.apply (pixels b) j + t * d.apply (pixels b) j := fun t j => by
    simp only [moveDense, Dense.apply, mul_add, Finset.sum_add_distrib, Finset.mul_sum]
    have : ∀ i, pixels b i * (t * d.kernel i j) = t * (pixels b i * d.kernel i j) := fun i => by ring
    simp only [this]
    ring
  simp only [Vae.logLik, e, logLikDer]
  exact HasDerivAt.fun_sum fun j _ => hasDerivAt_bernoulli _ _ _

/-- **C101.** The derivatives of the log probabilities with respect to the variables, in any direction. -/
theorem C101_derivative (g dg : Gen h xd) (q dq : QNet xd h) (x : Fin xd → Bool) (z : Latent h) :
    HasDerivAt (fun t => (g.move dg t).logJoint x z) (g.logJointDer dg x z) 0 ∧
    HasDerivAt (fun t => (q.move dq t).logProb x z) (q.logProbDer dq x z) 0 := by
  constructor
  · have h0 := hasDerivAt_const (0 : ℝ) (logLik (fun _ : Fin h => 0) z.2.2)
    refine (((h0.add (hasDerivAt_layer g.l2 dg.l2 z.2.2 z.2.1)).add (hasDerivAt_layer g.l1 dg.l1 z.2.1 z.1)).add
      (hasDerivAt_layer g.lx dg.lx z.1 x)).congr_deriv ?_
    rw [Gen.logJointDer, zero_add]
  · exact ((hasDerivAt_layer q.l1 dq.l1 x z.1).add (hasDerivAt_layer q.l2 dq.l2 z.1 z.2.1)).add (hasDerivAt_layer q.l3 dq.l3 z.2.1 z.2.2)

theorem moveDense_zero {m k : ℕ} (l d : Dense m k) : moveDense l d 0 = l := by simp [moveDense]

theorem Gen.move_zero (g dg : Gen h xd) : g.move dg 0 = g := by simp [Gen.move, moveDense_zero]

theorem QNet.move_zero (q dq : QNet xd h) : q.move dq 0 = q := by simp [QNet.move, moveDense_zero]

theorem expected_finite (q : QNet xd h) (x : Fin xd → Bool) (φ : (Fin K → Latent h) → ℝ) :
    ∫ u, φ (fun k => q.draw x (u k)) ∂(particles h K) = ∑ z : Fin K → Latent h, (∏ k, Real.exp (q.logProb x (z k))) * φ z := by
  have := isProb q x
  rw [integral_particles, samples_finite_integral _ fun z => (Real.exp_pos _).le]

/-- **C101.** For any values of the variables and any image, the expected gradient that `sbn_vimco.py` uses is the gradient of minus the expected
bound, with respect to all variables of both networks, for two or more particles: also through the probabilities with which the states are drawn. -/
theorem C101_vimco (g dg : Gen h xd) (q dq : QNet xd h) (x : Fin xd → Bool) (K : ℕ) :
    HasDerivAt (fun t => -∫ u, rowIw (g.move dg t) (q.move dq t) x u ∂(particles h (K + 2)))
      (∫ u, rowVimco g dg q dq x u ∂(particles h (K + 2))) 0 := by
  have := C44_unbiased_finite (K := K) (fun t => (g.move dg t).logJoint x) (fun t => (q.move dq t).logProb x) (g.logJointDer dg x)
    (q.logProbDer dq x) 0 (fun z => (C101_derivative g dg q dq x z).1) (fun z => (C101_derivative g dg q dq x z).2) fun t => logProb_sum _ x
  simp only [Gen.move_zero, QNet.move_zero] at this
  rw [← expected_finite q x fun z => (vimcoCost (fun k => ⟨g.logJoint x (z k), g.logJointDer dg x (z k)⟩)
    fun k => ⟨q.logProb x (z k), q.logProbDer dq x (z k)⟩).der] at this
  refine this.congr_of_eventuallyEq (Filter.Eventually.of_forall fun t => ?_)
  simp only [rowIw_eq]
  rw [expected_finite (q.move dq t) x fun z =>
    (iwObjective (fun k => .const ((g.move dg t).logJoint x (z k))) (fun k => .const ((q.move dq t).logProb x (z k)))).val]

theorem rowVimco_int (g dg : Gen h xd) (q dq : QNet xd h) (x : Fin xd → Bool) (K : ℕ) :
    Integrable (rowVimco g dg q dq x) (particles h (K + 1)) :=
  integrable_particles q x fun z => (vimcoCost (fun k => ⟨g.logJoint x (z k), g.logJointDer dg x (z k)⟩)
    fun k => ⟨q.logProb x (z k), q.logProbDer dq x (z k)⟩).der

theorem still_der (q : QNet xd h) (x : Fin xd → Bool) (z : Latent h) : q.logProbDer QNet.still x z = 0 := by
  simp [QNet.logProbDer, QNet.still, Sbn.still, logLikDer, Dense.apply]

/-- **C101.** The same for the gradient with respect to the variables of the model in `sbn_adaptive_is.py`, for one or more particles. -/
theorem C101_model_gradient (g dg : Gen h xd) (q : QNet xd h) (x : Fin xd → Bool) (K : ℕ) :
    HasDerivAt (fun t => -∫ u, rowIw (g.move dg t) q x u ∂(particles h (K + 1))) (∫ u, rowModel g dg q x u ∂(particles h (K + 1))) 0 := by
  have e1 : ∀ t, -∫ u, rowIw (g.move dg t) q x u ∂(particles h (K + 1)) = ∑ z : Fin (K + 1) → Latent h, (∏ k, Real.exp (q.logProb x (z k))) *
      -(iwObjective (fun k => .const ((g.move dg t).logJoint x (z k))) (fun k => .const (q.logProb x (z k)))).val := fun t => by
    simp only [rowIw_eq]
    rw [expected_finite q x fun z => (iwObjective (fun k => .const ((g.move dg t).logJoint x (z k))) (fun k => .const (q.logProb x (z k)))).val]
    simp only [mul_neg, Finset.sum_neg_distrib]
  have e2 : ∫ u, rowModel g dg q x u ∂(particles h (K + 1)) = ∑ z : Fin (K + 1) → Latent h, (∏ k, Real.exp (q.logProb x (z k))) *
      (iwSgvb (fun k => ⟨g.logJoint x (z k), g.logJointDer dg x (z k)⟩) (fun k => ⟨q.logProb x (z k), q.logProbDer QNet.still x (z k)⟩)).der := by
    rw [← expected_finite q x fun z => (iwSgvb (fun k => ⟨g.logJoint x (z k), g.logJointDer dg x (z k)⟩)
      (fun k => ⟨q.logProb x (z k), q.logProbDer QNet.still x (z k)⟩)).der]
    rfl
  simp only [e1, e2]
  refine HasDerivAt.fun_sum fun z _ => HasDerivAt.const_mul _ ?_
  have := C41_iw_pathwise (fun t k => (g.move dg t).logJoint x (z k)) (fun _ k => q.logProb x (z k)) (fun k => g.logJointDer dg x (z k))
    (fun k => q.logProbDer QNet.still x (z k)) 0 (fun k => (C101_derivative g dg q q x (z k)).1) fun k => by
      rw [still_der]; exact hasDerivAt_const _ _
  simp only [Gen.move_zero] at this
  exact this

theorem rowModel_int (g dg : Gen h xd) (q : QNet xd h) (x : Fin xd → Bool) (K : ℕ) :
    Integrable (rowModel g dg q x) (particles h (K + 1)) :=
  integrable_particles q x fun z => (-iwObjective (fun k => ⟨g.logJoint x (z k), g.logJointDer dg x (z k)⟩)
    fun k => ⟨q.logProb x (z k), q.logProbDer QNet.still x (z k)⟩).der

/-- **C101.** The gradient that adapts the proposal converges, as the number of independent particles grows, to the gradient of the divergence
of the posterior of the states from the proposal. -/
theorem C101_proposal (g : Gen h xd) (q dq : QNet xd h) (x : Fin xd → Bool) {Ω : Type} [MeasurableSpace Ω] {P : Measure Ω}
    (u : ℕ → Ω → Draws h) (hu : ∀ i, Measurable (u i)) (hind : Pairwise fun i j => IndepFun (u i) (u j) P) (hlaw : ∀ i, P.map (u i) = drawsLaw h) :
    ∃ L, HasDerivAt (fun t => klFinite (posteriorProb (odds g.l2) (odds g.l1) (odds g.lx) x)
        (upProb (odds (q.move dq t).l1 x) (odds (q.move dq t).l2) (odds (q.move dq t).l3))) L 0 ∧
      ∀ᵐ ω ∂P, Filter.Tendsto (fun K : ℕ => rowKlpq g q dq x fun k : Fin (K + 1) => u k ω) Filter.atTop (nhds L) := by
  obtain ⟨hM, hi⟩ := latentModel g q x
  have hE := marginal_pos g x
  have key := C45_consistent (P := P) (μ := Measure.count) (p := fun z => Real.exp (g.logJoint x z)) (q := fun z => Real.exp (q.logProb x z))
    (lq' := q.logProbDer dq x) (lpder := g.logJointDer Gen.still x) (fun _ => Real.exp_pos _) (fun _ => Real.exp_pos _) hM
    (measurable_of_finite _) Integrable.of_finite (fun i ω => q.draw x (u i ω)) (fun i => (measurable_draw q x).comp (hu i))
    (fun i j hij => (hind hij).comp (measurable_draw q x) (measurable_draw q x)) fun i => by
      rw [← draw_law, ← hlaw i, Measure.map_map (measurable_draw q x) (hu i)]
      rfl
  have eL : ∫ z, -q.logProbDer dq x z ∂(Grad.posterior Measure.count fun z => Real.exp (g.logJoint x z)) =
      ∑ z, posteriorProb (odds g.l2) (odds g.l1) (odds g.lx) x z * -q.logProbDer dq x z := by
    rw [Grad.posterior, integral_withDensity_eq_integral_toReal_smul (measurable_of_finite _) (Filter.Eventually.of_forall fun _ => ENNReal.ofReal_lt_top),
      integral_count]
    refine Finset.sum_congr rfl fun z _ => ?_
    rw [evidence_eq, smul_eq_mul, ENNReal.toReal_ofReal (div_nonneg (Real.exp_pos _).le hE.le), exp_logJoint]
    rfl
  rw [eL] at key
  refine ⟨∑ z, posteriorProb (odds g.l2) (odds g.l1) (odds g.lx) x z * -q.logProbDer dq x z, ?_, ?_⟩
  rotate_left
  · filter_upwards [key] with ω hω
    simp only [Real.log_exp] at hω
    exact hω
  · unfold klFinite
    refine HasDerivAt.fun_sum fun z _ => HasDerivAt.const_mul _ ?_
    have hp : 0 < posteriorProb (odds g.l2) (odds g.l1) (odds g.lx) x z := by
      rw [posteriorProb, ← exp_logJoint]
      exact div_pos (Real.exp_pos _) hE
    have e : (fun t => Real.log (posteriorProb (odds g.l2) (odds g.l1) (odds g.lx) x z /
        upProb (odds (q.move dq t).l1 x) (odds (q.move dq t).l2) (odds (q.move dq t).l3) z)) = fun t =>
        Real.log (posteriorProb (odds g.l2) (odds g.l1) (odds g.lx) x z) - (q.move dq t).logProb x z := by
      funext t
      rw [← exp_logProb, Real.log_div hp.ne' (Real.exp_pos _).ne', Real.log_exp]
    rw [e]
    exact (C101_derivative g g q dq x z).2.const_sub _

/-! ## Batches -/

/-- The noise of a batch. -/
noncomputable def noiseLaw (xd h K b : ℕ) : Measure (Fin b → (Fin xd → ℝ) × (Fin K → Draws h)) :=
  Measure.pi fun _ => (uniforms (Fin xd)).prod (particles h K)

theorem train_mean (row : (Fin xd → Bool) → (Fin (K + 1) → Draws h) → ℝ) (hr : ∀ x, Integrable (row x) (particles h (K + 1)))
    (x : Fin n → Fin xd → ℝ) (hx : ∀ i d, 0 ≤ x i d ∧ x i d ≤ 1) (π : Equiv.Perm (Fin n)) (b t : ℕ) (hb : 0 < b) (ht : t < itersDown n b) :
    ∫ σ, ∫ z, batchMean row (batch (fun i => x (π (σ i))) b t) z ∂(noiseLaw xd h (K + 1) b) ∂(uniform n) =
      (∑ i, ∑ y, imageProb (x i) y * ∫ u, row y u ∂(particles h (K + 1))) / n := by
  rw [← Equiv.sum_comp π fun i => ∑ y, imageProb (x i) y * ∫ u, row y u ∂(particles h (K + 1))]
  have hd : itersDown n b ≤ itersUp n b := Nat.div_le_div_right (by omega)
  rw [← C92_unbiased_mean (fun i => x (π i)) b t hb (ht.trans_le hd) fun xi => ∑ y, imageProb xi y * ∫ u, row y u ∂(particles h (K + 1))]
  refine integral_congr_ae (Filter.Eventually.of_forall fun σ => ?_)
  have hl : (batch (fun i => x (π (σ i))) b t).length = b := (C92_cover_down _ b).2 t ht
  simp only [batchMean, noiseLaw]
  rw [mean_zipWith _ (fun xInput (z : (Fin xd → ℝ) × (Fin (K + 1) → Draws h)) => row (binarize xInput z.1) z.2) _ hl fun d _ =>
    integrable_binarized _ row hr d]
  congr 1
  refine List.map_congr_left fun xi hxi => ?_
  obtain ⟨i, rfl⟩ := batch_mem _ _ _ hxi
  rw [integral_prod _ (integrable_binarized _ row hr _), integral_binarize _ (hx (π (σ i))) fun y => ∫ u, row y u ∂(particles h (K + 1))]

/-- **C101.** Training with `sbn_vimco.py`: over the shuffle (after any shuffles `π` before), the draws that make the images binary and those of the
particles, the expected gradient of a batch is the gradient of minus the expected bound, averaged over all training images and their binary
images; in every iteration of the epoch, for any batch size. -/
theorem C101_train_vimco (g dg : Gen h xd) (q dq : QNet xd h) (x : Fin n → Fin xd → ℝ) (hx : ∀ i d, 0 ≤ x i d ∧ x i d ≤ 1)
    (π : Equiv.Perm (Fin n)) (b t : ℕ) (hb : 0 < b) (ht : t < itersDown n b) (K : ℕ) :
    HasDerivAt (fun s => -((∑ i, ∑ y, imageProb (x i) y * ∫ u, rowIw (g.move dg s) (q.move dq s) y u ∂(particles h (K + 2))) / n))
      (∫ σ, ∫ z, batchMean (rowVimco g dg q dq) (batch (fun i => x (π (σ i))) b t) z ∂(noiseLaw xd h (K + 2) b) ∂(uniform n)) 0 := by
  have e := train_mean (K := K + 1) (rowVimco g dg q dq) (fun y => rowVimco_int g dg q dq y (K + 1)) x hx π b t hb ht
  rw [e]
  have hd := (HasDerivAt.fun_sum (u := Finset.univ) fun (i : Fin n) _ => HasDerivAt.fun_sum (u := Finset.univ) fun (y : Fin xd → Bool) _ =>
    (C101_vimco g dg q dq y K).const_mul (imageProb (x i) y)).div_const (n : ℝ)
  refine hd.congr_of_eventuallyEq (Filter.Eventually.of_forall fun s => ?_)
  simp only [mul_neg, Finset.sum_neg_distrib, neg_div]

/-- **C101.** The same for the variables of the model in `sbn_adaptive_is.py`. -/
theorem C101_train_model (g dg : Gen h xd) (q : QNet xd h) (x : Fin n → Fin xd → ℝ) (hx : ∀ i d, 0 ≤ x i d ∧ x i d ≤ 1)
    (π : Equiv.Perm (Fin n)) (b t : ℕ) (hb : 0 < b) (ht : t < itersDown n b) (K : ℕ) :
    HasDerivAt (fun s => -((∑ i, ∑ y, imageProb (x i) y * ∫ u, rowIw (g.move dg s) q y u ∂(particles h (K + 1))) / n))
      (∫ σ, ∫ z, batchMean (rowModel g dg q) (batch (fun i => x (π (σ i))) b t) z ∂(noiseLaw xd h (K + 1) b) ∂(uniform n)) 0 := by
  rw [train_mean (rowModel g dg q) (fun y => rowModel_int g dg q y K) x hx π b t hb ht]
  have hd := (HasDerivAt.fun_sum (u := Finset.univ) fun (i : Fin n) _ => HasDerivAt.fun_sum (u := Finset.univ) fun (y : Fin xd → Bool) _ =>
    (C101_model_gradient g dg q y K).const_mul (imageProb (x i) y)).div_const (n : ℝ)
  refine hd.congr_of_eventuallyEq (Filter.Eventually.of_forall fun s => ?_)
  simp only [mul_neg, Finset.sum_neg_distrib, neg_div]

/-- **C101.** What the tests print, as "lower bound" and as "log likelihood": the mean over the batches has an expected value of at most the mean
log probability of the test images in full batches, to which it tends with the number of particles. -/
theorem C101_test (g : Gen h xd) (q : QNet xd h) (x : Fin n → Fin xd → Bool) (b : ℕ) (hb : 0 < b) :
    let printed : ℕ → ℝ := fun K => mean ((List.range (itersDown n b)).map fun t => ∫ z, testMean (rowIw g q) (batch x b t) z
      ∂(Measure.pi fun _ : Fin b => particles h (K + 1)))
    let target : ℝ := mean (((List.ofFn x).take (n - n % b)).map fun y => Real.log (marginal (odds g.l2) (odds g.l1) (odds g.lx) y))
    (∀ K, printed K ≤ target) ∧ Filter.Tendsto printed Filter.atTop (nhds target) := by
  intro printed target
  have e : ∀ K, printed K = mean (((List.ofFn x).take (n - n % b)).map fun y => ∫ u, rowIw g q y u ∂(particles h (K + 1))) := fun K => by
    rw [← C92_mean_of_means x b hb, meanOfMeans]
    refine congrArg mean (List.map_congr_left fun t ht => ?_)
    have hl : (batch x b t).length = b := (C92_cover_down x b).2 t (List.mem_range.1 ht)
    simp only [testMean]
    rw [mean_zipWith _ (rowIw g q) _ hl fun y _ => rowIw_int g q y K]
  have hs : ∀ l : List (Fin xd → Bool), (∀ K, mean (l.map fun y => ∫ u, rowIw g q y u ∂(particles h (K + 1))) ≤
        mean (l.map fun y => Real.log (marginal (odds g.l2) (odds g.l1) (odds g.lx) y))) ∧
      Filter.Tendsto (fun K => mean (l.map fun y => ∫ u, rowIw g q y u ∂(particles h (K + 1)))) Filter.atTop
        (nhds (mean (l.map fun y => Real.log (marginal (odds g.l2) (odds g.l1) (odds g.lx) y)))) := fun l => by
    simp only [mean, List.length_map]
    refine ⟨fun K => div_le_div_of_nonneg_right (List.sum_le_sum fun y _ => (C101_bound g q y).1 K) (Nat.cast_nonneg _), ?_⟩
    refine Filter.Tendsto.div_const ?_ _
    induction l with
    | nil => simp
    | cons y l ih => simpa using ((C101_bound g q y).2.2).add ih
  exact ⟨fun K => (e K).trans_le ((hs _).1 K), ((hs _).2).congr fun K => (e K).symm⟩

/-- A net with two units in each layer and an image of three pixels. -/
example (l : ∀ m k, Dense m k) (x : Fin 5 → Fin 3 → ℝ) (hx : ∀ i d, 0 ≤ x i d ∧ x i d ≤ 1) :=
  C101_train_vimco (⟨l 2 2, l 2 2, l 2 3⟩ : Gen 2 3) ⟨l 2 2, l 2 2, l 2 3⟩ (⟨l 3 2, l 2 2, l 2 2⟩ : QNet 3 2) ⟨l 3 2, l 2 2, l 2 2⟩ x hx 1 2 1
    (by norm_num) (by norm_num [itersDown]) 0

/-- There are independent draws as in `C101_proposal`. -/
example : ∃ (Ω : Type) (_ : MeasurableSpace Ω) (P : Measure Ω) (u : ℕ → Ω → Draws h), (∀ i, Measurable (u i)) ∧
    (Pairwise fun i j => IndepFun (u i) (u j) P) ∧ ∀ i, P.map (u i) = drawsLaw h := by
  refine ⟨ℕ → Draws h, inferInstance, Measure.infinitePi fun _ => drawsLaw h, fun i x => x i, fun i => measurable_pi_apply i, ?_, fun i => ?_⟩
  · have hi : iIndepFun (fun i (x : ℕ → Draws h) => x i) (Measure.infinitePi fun _ : ℕ => drawsLaw h) := iIndepFun_infinitePi fun i => measurable_id
    exact fun i j hij => hi.indepFun hij
  · exact (measurePreserving_eval_infinitePi (fun _ : ℕ => drawsLaw h) i).map_eq

end

end ZhuSuan.Sbn
