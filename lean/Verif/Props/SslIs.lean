import Verif.Model.SslIs
import Verif.Props.ScoreEst
import Verif.Props.Ssl
import Verif.Props.Dropout

/-!
# The semi-supervised autoencoder with adaptive importance sampling (C107)
-/

set_option autoImplicit false

open MeasureTheory ProbabilityTheory InformationTheory

namespace ZhuSuan.SslIs

open Vae Num Ssl

section
variable {zd C h1 h2 k1 k2 c1 c2 xd K n m b : ℕ}

/-! ## The bound of a labeled image -/

theorem LME_sub (x : Fin (K + 1) → ℝ) (c : ℝ) : Grad.LME (fun k => x k - c) = Grad.LME x - c := by
  have hs : 0 < ∑ k, Real.exp (x k) := Finset.sum_pos (fun k _ => Real.exp_pos _) ⟨0, Finset.mem_univ 0⟩
  have e : (∑ k, Real.exp (x k - c)) / ((K + 1 : ℕ) : ℝ) = (∑ k, Real.exp (x k)) / ((K + 1 : ℕ) : ℝ) / Real.exp c := by
    simp only [Real.exp_sub]
    rw [← Finset.sum_div, div_right_comm]
  rw [Grad.LME, e, Real.log_div (div_pos hs (by positivity)).ne' (Real.exp_pos c).ne', Real.log_exp]
  rfl

theorem labeledIw_eq (g : Gen zd (C + 1) h1 h2 xd) (q : Qz xd (C + 1) k1 k2 zd) (x : Fin xd → Bool) (y : Fin (C + 1))
    (e : Fin (K + 1) → Fin zd → ℝ) : labeledIw g q x y e = rowIw (g.at y) (q.at y) x e - Real.log ((C + 1 : ℕ) : ℝ) := by
  have h2 : rowIw (g.at y) (q.at y) x e = Grad.LME fun k => logPrior (samples q x y e k) + logLik (g.logits (samples q x y e k) y) x -
      logNormals (q.mean x y) (q.logstd x y) (samples q x y e k) := by
    rw [rowIw, Grad.iwObjective_val]
    unfold QNet.particle Vae.Gen.logJoint
    rw [q.at_mean, q.at_logstd, g.at_logits]
    rfl
  rw [h2, ← LME_sub, labeledIw, Grad.iwObjective_val]
  congr 1
  funext k
  simp only [Grad.Dual.val_const, Ssl.Gen.logJoint, logPriorY_eq]
  ring

theorem unlabeledIw_eq (g : Gen zd (C + 1) h1 h2 xd) (q : Qz xd (C + 1) k1 k2 zd) (qy : Qy xd c1 c2 (C + 1)) (x : Fin xd → Bool) (y : Fin (C + 1))
    (e : Fin (K + 1) → Fin zd → ℝ) : unlabeledIw g q qy x y e = labeledIw g q x y e - Real.log (Num.softmax (qy.logits (pixels x)) y) := by
  have h : onehotLogProb (qy.logits (pixels x)) (oneHot y) = Real.log (Num.softmax (qy.logits (pixels x)) y) := by
    rw [C21_onehot, ← (C21_mass (qy.logits (pixels x)) y).1, Real.log_exp]
  rw [unlabeledIw, labeledIw, Grad.iwObjective_val, Grad.iwObjective_val, ← LME_sub, h]
  congr 1
  funext k
  simp only [Grad.Dual.val_const]
  ring

/-- The expected bound of a labeled image with `K + 1` particles. -/
noncomputable def labeledMean (g : Gen zd (C + 1) h1 h2 xd) (q : Qz xd (C + 1) k1 k2 zd) (x : Fin xd → Bool) (y : Fin (C + 1)) (K : ℕ) : ℝ :=
  ∫ e, labeledIw g q x y e ∂(Measure.pi fun _ : Fin (K + 1) => normals (Fin zd))

theorem labeledIw_int (g : Gen zd (C + 1) h1 h2 xd) (q : Qz xd (C + 1) k1 k2 zd) (x : Fin xd → Bool) (y : Fin (C + 1)) (K : ℕ) :
    Integrable (fun e => labeledIw g q x y e) (Measure.pi fun _ : Fin (K + 1) => normals (Fin zd)) := by
  simp only [labeledIw_eq]
  have h : Integrable (fun e => rowIw (g.at y) (q.at y) x e) (Measure.pi fun _ : Fin (K + 1) => normals (Fin zd)) :=
    row_iw_int (lik_logLik (g.at y) x) ((q.at y).mean x) ((q.at y).logstd x) (q.at y).flows (q.at_ok y) K
  exact h.sub (integrable_const _)

theorem log_classProb (g : Gen zd (C + 1) h1 h2 xd) (x : Fin xd → Bool) (y : Fin (C + 1)) :
    Real.log (classProb g.logits x y) = Real.log (modelProb (g.at y).logits x) - Real.log ((C + 1 : ℕ) : ℝ) := by
  rw [classProb, Real.log_div _ (by positivity), g.at_logits]
  have := (C98_model (g.at y)).1 x
  rw [g.at_logits] at this
  exact this.ne'

/-- **C107.** The expected bound of an image with its label is at most the log probability of both under the model, grows with the number of
particles, and tends to that log probability. -/
theorem C107_labeled (g : Gen zd (C + 1) h1 h2 xd) (q : Qz xd (C + 1) k1 k2 zd) (x : Fin xd → Bool) (y : Fin (C + 1)) :
    (∀ K : ℕ, ∫ e, labeledIw g q x y e ∂(Measure.pi fun _ : Fin (K + 1) => normals (Fin zd)) ≤ Real.log (classProb g.logits x y)) ∧
    (Monotone fun K : ℕ => ∫ e, labeledIw g q x y e ∂(Measure.pi fun _ : Fin (K + 1) => normals (Fin zd))) ∧
    Filter.Tendsto (fun K : ℕ => ∫ e, labeledIw g q x y e ∂(Measure.pi fun _ : Fin (K + 1) => normals (Fin zd))) Filter.atTop
      (nhds (Real.log (classProb g.logits x y))) := by
  have e : ∀ K : ℕ, ∫ e, labeledIw g q x y e ∂(Measure.pi fun _ : Fin (K + 1) => normals (Fin zd)) =
      ∫ e, rowIw (g.at y) (q.at y) x e ∂(Measure.pi fun _ : Fin (K + 1) => normals (Fin zd)) - Real.log ((C + 1 : ℕ) : ℝ) := fun K => by
    have h : Integrable (fun e => rowIw (g.at y) (q.at y) x e) (Measure.pi fun _ : Fin (K + 1) => normals (Fin zd)) :=
      row_iw_int (lik_logLik (g.at y) x) ((q.at y).mean x) ((q.at y).logstd x) (q.at y).flows (q.at_ok y) K
    simp only [labeledIw_eq]
    rw [integral_sub h (integrable_const _)]
    simp
  obtain ⟨i1, i2, i3⟩ := C98_iw (g.at y) (q.at y) (q.at_ok y) x
  simp only [e, log_classProb]
  exact ⟨fun K => sub_le_sub_right (i1 K) _, fun a b hab => sub_le_sub_right (i2 hab) _, i3.sub_const _⟩

/-! ## The bound of an unlabeled image -/

theorem integral_categorical (l : Fin (C + 1) → ℝ) (f : Fin (C + 1) → ℝ) : ∫ y, f y ∂(categoricalLaw l) = ∑ y, Num.softmax l y * f y := by
  rw [integral_fintype .of_finite]
  refine Finset.sum_congr rfl fun y _ => ?_
  rw [measureReal_def, categoricalLaw_singleton, ENNReal.toReal_ofReal (softmax_pos l y).le, smul_eq_mul]

/-- The expected bound of an unlabeled image with `K + 1` particles: the class is drawn once from the classifier. -/
noncomputable def unlabeledMean (g : Gen zd (C + 1) h1 h2 xd) (q : Qz xd (C + 1) k1 k2 zd) (qy : Qy xd c1 c2 (C + 1)) (x : Fin xd → Bool) (K : ℕ) : ℝ :=
  ∫ y, ∫ e, unlabeledIw g q qy x y e ∂(Measure.pi fun _ : Fin (K + 1) => normals (Fin zd)) ∂(categoricalLaw (qy.logits (pixels x)))

theorem unlabeledMean_eq (g : Gen zd (C + 1) h1 h2 xd) (q : Qz xd (C + 1) k1 k2 zd) (qy : Qy xd c1 c2 (C + 1)) (x : Fin xd → Bool) (K : ℕ) :
    unlabeledMean g q qy x K = Real.log (marginalProb g.logits x) - (classKl (Num.softmax (qy.logits (pixels x))) (classPosterior g.logits x) +
      ∑ c, Num.softmax (qy.logits (pixels x)) c * (Real.log (classProb g.logits x c) - labeledMean g q x c K)) := by
  have h : ∀ y, ∫ e, unlabeledIw g q qy x y e ∂(Measure.pi fun _ : Fin (K + 1) => normals (Fin zd)) =
      labeledMean g q x y K - Real.log (Num.softmax (qy.logits (pixels x)) y) := fun y => by
    simp only [unlabeledIw_eq]
    rw [integral_sub (labeledIw_int g q x y K) (integrable_const _)]
    simp [labeledMean]
  rw [unlabeledMean, integral_categorical,
    ← row_unlabeled g x (Num.softmax (qy.logits (pixels x))) (softmax_pos _) (softmax_sum _)]
  refine Finset.sum_congr rfl fun c _ => ?_
  rw [h]
  ring

/-- **C107.** The claim about the unlabeled images is that the expected bound is at most the log probability of the image under the model, grows with
the number of particles and tends to that log probability.  The last part is false: it tends to the log probability minus the divergence of the
classifier from the posterior of the classes, because all particles of an image have the same class. -/
theorem C107_unlabeled_partial (g : Gen zd (C + 1) h1 h2 xd) (q : Qz xd (C + 1) k1 k2 zd) (qy : Qy xd c1 c2 (C + 1)) (x : Fin xd → Bool) :
    (∀ K : ℕ, unlabeledMean g q qy x K ≤ Real.log (marginalProb g.logits x)) ∧ (Monotone fun K : ℕ => unlabeledMean g q qy x K) ∧
    Filter.Tendsto (fun K : ℕ => unlabeledMean g q qy x K) Filter.atTop
      (nhds (Real.log (marginalProb g.logits x) - classKl (Num.softmax (qy.logits (pixels x))) (classPosterior g.logits x))) := by
  have hp := softmax_pos (qy.logits (pixels x))
  obtain ⟨h3, h4⟩ := classPosterior_props g x
  have hk := classKl_nonneg hp h3 (softmax_sum _) h4
  simp only [unlabeledMean_eq]
  refine ⟨fun K => sub_le_self _ (add_nonneg hk (Finset.sum_nonneg fun c _ => mul_nonneg (hp c).le
    (sub_nonneg.2 ((C107_labeled g q x c).1 K)))), fun a b hab => ?_, ?_⟩
  · refine sub_le_sub_left (add_le_add_right (Finset.sum_le_sum fun c _ => mul_le_mul_of_nonneg_left ?_ (hp c).le) _) _
    exact sub_le_sub_left ((C107_labeled g q x c).2.1 hab) _
  · have h : Filter.Tendsto (fun K : ℕ => ∑ c, Num.softmax (qy.logits (pixels x)) c *
        (Real.log (classProb g.logits x c) - labeledMean g q x c K)) Filter.atTop (nhds (∑ c, Num.softmax (qy.logits (pixels x)) c *
        (Real.log (classProb g.logits x c) - Real.log (classProb g.logits x c)))) :=
      tendsto_finsetSum _ fun c _ => ((C107_labeled g q x c).2.2.const_sub _).const_mul _
    simp only [sub_self, mul_zero, Finset.sum_const_zero] at h
    have h2 := (h.const_add (classKl (Num.softmax (qy.logits (pixels x))) (classPosterior g.logits x))).const_sub (Real.log (marginalProb g.logits x))
    rwa [add_zero] at h2

theorem classKl_pos {q p : Fin C → ℝ} (hq : ∀ c, 0 < q c) (hp : ∀ c, 0 < p c) (h1 : ∑ c, q c = 1) (h2 : ∑ c, p c = 1) {c : Fin C} (hc : q c ≠ p c) :
    0 < classKl q p := by
  have e : ∀ c, q c * Real.log (q c / p c) = -(q c * Real.log (p c / q c)) := fun c => by
    rw [show q c / p c = (p c / q c)⁻¹ by rw [inv_div], Real.log_inv]
    ring
  have e2 : ∀ c, q c * (p c / q c - 1) = p c - q c := fun c => by
    field_simp [(hq c).ne']
  have h : ∑ c, (q c - p c) < ∑ c, q c * Real.log (q c / p c) := by
    refine Finset.sum_lt_sum (fun c _ => ?_) ⟨c, Finset.mem_univ c, ?_⟩
    · have h := mul_le_mul_of_nonneg_left (Real.log_le_sub_one_of_pos (div_pos (hp c) (hq c))) (hq c).le
      rw [e2] at h
      rw [e]
      linarith
    · have h := mul_lt_mul_of_pos_left (Real.log_lt_sub_one_of_pos (div_pos (hp c) (hq c)) fun h => hc ((div_eq_one_iff_eq (hq c).ne').1 h).symm) (hq c)
      rw [e2] at h
      rw [e]
      linarith
  rw [Finset.sum_sub_distrib, h1, h2, sub_self] at h
  exact h

/-- **C107.** So whenever the classifier is not exactly the posterior, no number of particles brings the expected bound of an unlabeled image close to
its log probability. -/
theorem C107_unlabeled_gap (g : Gen zd (C + 1) h1 h2 xd) (q : Qz xd (C + 1) k1 k2 zd) (qy : Qy xd c1 c2 (C + 1)) (x : Fin xd → Bool) (c : Fin (C + 1))
    (hc : Num.softmax (qy.logits (pixels x)) c ≠ classPosterior g.logits x c) :
    ∃ ε > 0, ∀ K : ℕ, unlabeledMean g q qy x K ≤ Real.log (marginalProb g.logits x) - ε := by
  obtain ⟨h3, h4⟩ := classPosterior_props g x
  refine ⟨_, classKl_pos (softmax_pos _) h3 (softmax_sum _) h4 hc, fun K => ?_⟩
  obtain ⟨_, i2, i3⟩ := C107_unlabeled_partial g q qy x
  exact i2.ge_of_tendsto i3 K

/-- With two classes or more there is such a classifier for every model and image: of two classifiers with constant but different outputs, one
differs from the posterior. -/
theorem C107_unlabeled_gap_exists (g : Gen zd (C + 2) h1 h2 xd) (x : Fin xd → Bool) :
    ∃ (qy : Qy xd c1 c2 (C + 2)) (c : Fin (C + 2)), Num.softmax (qy.logits (pixels x)) c ≠ classPosterior g.logits x c := by
  let Q : (Fin (C + 2) → ℝ) → Qy xd c1 c2 (C + 2) := fun b => ⟨⟨fun _ _ => 0, fun _ => 0⟩, ⟨fun _ _ => 0, fun _ => 0⟩, ⟨fun _ _ => 0, b⟩⟩
  have hQ : ∀ b, (Q b).logits (pixels x) = b := fun b => by
    funext c
    simp [Q, Qy.logits, Dense.apply]
  by_contra h
  simp only [not_exists, not_not] at h
  have h0 := h (Q 0) 0
  have h1 := h (Q (Pi.single 0 1)) 0
  rw [hQ] at h0 h1
  rw [← h0] at h1
  have hs : 0 < ∑ j : Fin (C + 1), Real.exp 0 := Finset.sum_pos (fun k _ => Real.exp_pos _) ⟨0, Finset.mem_univ 0⟩
  simp only [Num.softmax, Fin.sum_univ_succ (n := C + 1), Pi.zero_apply, Pi.single_eq_same, Pi.single_apply, Fin.succ_ne_zero, if_false, if_true,
    Real.exp_zero] at h1 hs
  have he : 1 < Real.exp 1 := Real.one_lt_exp_iff.2 one_pos
  rw [div_eq_div_iff (by linarith) (by linarith)] at h1
  nlinarith

/-! ## Batches -/

/-- What is drawn for an unlabeled image: the class and the standard normal draws of the particles. -/
noncomputable def unlabeledLaw (zd : ℕ) (qy : Qy xd c1 c2 (C + 1)) (K : ℕ) (x : Fin xd → Bool) : Measure (Fin (C + 1) × (Fin (K + 1) → Fin zd → ℝ)) :=
  (categoricalLaw (qy.logits (pixels x))).prod (Measure.pi fun _ => normals (Fin zd))

instance (qy : Qy xd c1 c2 (C + 1)) (x : Fin xd → Bool) : IsProbabilityMeasure (unlabeledLaw zd qy K x) := by unfold unlabeledLaw; infer_instance

theorem integrable_finite_prod {A B : Type} [Fintype A] [DecidableEq A] [MeasurableSpace A] [MeasurableSingletonClass A] [MeasurableSpace B]
    {μ : Measure A} [IsFiniteMeasure μ] {ν : Measure B} [SFinite ν] {f : A → B → ℝ} (hf : ∀ a, Integrable (f a) ν) :
    Integrable (fun p : A × B => f p.1 p.2) (μ.prod ν) := by
  have e : (fun p : A × B => f p.1 p.2) = fun p : A × B => ∑ a, (if p.1 = a then (1 : ℝ) else 0) * f a p.2 := by
    funext p
    simp
  rw [e]
  refine integrable_finsetSum _ fun a _ => ?_
  have h1 : Integrable (fun a' : A => if a' = a then (1 : ℝ) else 0) μ := .of_finite
  exact h1.mul_prod (hf a)

theorem unlabeledIw_int (g : Gen zd (C + 1) h1 h2 xd) (q : Qz xd (C + 1) k1 k2 zd) (qy : Qy xd c1 c2 (C + 1)) (x : Fin xd → Bool) (K : ℕ) :
    Integrable (fun p => unlabeledIw g q qy x p.1 p.2) (unlabeledLaw zd qy K x) := by
  have h : ∀ y, Integrable (fun e => unlabeledIw g q qy x y e) (Measure.pi fun _ : Fin (K + 1) => normals (Fin zd)) := fun y => by
    simp only [unlabeledIw_eq]
    exact (labeledIw_int g q x y K).sub (integrable_const _)
  exact integrable_finite_prod h

/-- **C107.** The expected bounds of a batch are the means over its images of those of one image. -/
theorem C107_batch (g : Gen zd (C + 1) h1 h2 xd) (q : Qz xd (C + 1) k1 k2 zd) (qy : Qy xd c1 c2 (C + 1)) (x : Fin n → Fin xd → Bool)
    (y : Fin n → Fin (C + 1)) (K : ℕ) :
    ∫ e, labeledBound g q x y e ∂(particles n (K + 1) zd) =
      (∑ i, ∫ e, labeledIw g q (x i) (y i) e ∂(Measure.pi fun _ : Fin (K + 1) => normals (Fin zd))) / n ∧
    ∫ noise, unlabeledBound g q qy x noise ∂(Measure.pi fun i => unlabeledLaw zd qy K (x i)) = (∑ i, unlabeledMean g q qy (x i) K) / n := by
  constructor
  · unfold labeledBound particles
    rw [integral_div, integral_finsetSum _ fun i _ => integrable_comp_eval (μ := fun _ : Fin n => Measure.pi fun _ : Fin (K + 1) => normals (Fin zd))
      (i := i) (labeledIw_int g q (x i) (y i) K)]
    congr 1
    refine Finset.sum_congr rfl fun i _ => ?_
    exact integral_comp_eval (μ := fun _ : Fin n => Measure.pi fun _ : Fin (K + 1) => normals (Fin zd)) (i := i)
      (labeledIw_int g q (x i) (y i) K).aestronglyMeasurable
  · unfold unlabeledBound
    rw [integral_div, integral_finsetSum _ fun i _ => integrable_comp_eval (μ := fun i : Fin n => unlabeledLaw zd qy K (x i))
      (i := i) (unlabeledIw_int g q qy (x i) K)]
    congr 1
    refine Finset.sum_congr rfl fun i _ => ?_
    refine (integral_comp_eval (μ := fun i : Fin n => unlabeledLaw zd qy K (x i)) (i := i)
      (unlabeledIw_int g q qy (x i) K).aestronglyMeasurable).trans ?_
    have h := unlabeledIw_int g q qy (x i) K
    unfold unlabeledLaw at h ⊢
    rw [integral_prod _ h]
    rfl

/-! ## The cost of the proposal -/

theorem labeledQ_der (g : Gen zd (C + 1) h1 h2 xd) (q : Qz xd (C + 1) k1 k2 zd) (d : Dir zd (C + 1) xd) (x : Fin xd → Bool) (y : Fin (C + 1))
    (e : Fin (K + 1) → Fin zd → ℝ) : (labeledQ g q d x y e).der = ∑ k, (Grad.importanceWeight (fun k => .const (g.logJoint x y (samples q x y e k)))
      (fun k => logQz q d x y (samples q x y e k)) k).val * -(logQz q d x y (samples q x y e k)).der :=
  (Grad.C45_gradient _ _).2.2

/-- The particles of an unlabeled image have the weights that they have for the image labeled with the class that was drawn. -/
theorem unlabeledQ_der (g : Gen zd (C + 1) h1 h2 xd) (q : Qz xd (C + 1) k1 k2 zd) (qy : Qy xd c1 c2 (C + 1)) (d : Dir zd (C + 1) xd)
    (x : Fin xd → Bool) (y : Fin (C + 1)) (e : Fin (K + 1) → Fin zd → ℝ) :
    (unlabeledQ g q qy d x y e).der = (labeledQ g q d x y e).der - onehotDer (qy.logits (pixels x)) (d.logits x) y := by
  rw [labeledQ_der, unlabeledQ, (Grad.C45_gradient _ _).2.2]
  have hw : ∀ k, (Grad.importanceWeight (fun k => .const (g.logJoint x y (samples q x y e k)))
      (fun k => logQy qy d x y + logQz q d x y (samples q x y e k)) k).val =
      (Grad.importanceWeight (fun k => .const (g.logJoint x y (samples q x y e k))) (fun k => logQz q d x y (samples q x y e k)) k).val := fun k => by
    simp only [Grad.importanceWeight_val, Grad.Dual.val_const, Grad.Dual.val_add]
    have e1 : ∀ j, Real.exp (g.logJoint x y (samples q x y e j) - ((logQy qy d x y).val + (logQz q d x y (samples q x y e j)).val)) =
        Real.exp (-(logQy qy d x y).val) * Real.exp (g.logJoint x y (samples q x y e j) - (logQz q d x y (samples q x y e j)).val) := fun j => by
      rw [← Real.exp_add]
      congr 1
      ring
    simp only [e1]
    rw [← Finset.mul_sum, mul_div_mul_left _ _ (Real.exp_pos _).ne']
  have h1 := (Grad.C45_weights (fun k => .const (g.logJoint x y (samples q x y e k))) (fun k => logQz q d x y (samples q x y e k))).2
  simp only [hw, Grad.Dual.der_add, neg_add, mul_add, Finset.sum_add_distrib]
  rw [← Finset.sum_mul, h1]
  simp only [logQy]
  ring

theorem onehotDer_mean (l dl : Fin (C + 1) → ℝ) : ∑ y, Num.softmax l y * onehotDer l dl y = 0 := by
  have e : ∀ y, Num.softmax l y * onehotDer l dl y = Num.softmax l y * dl y - Num.softmax l y * ∑ j, Num.softmax l j * dl j := fun y => by
    rw [onehotDer, mul_sub]
    rfl
  rw [Finset.sum_congr rfl fun y _ => e y, Finset.sum_sub_distrib, ← Finset.sum_mul, softmax_sum, one_mul, sub_self]

theorem integrable_quad (a b c : Fin zd → ℝ) : Integrable (fun z : Fin zd → ℝ => ∑ j, (a j + b j * z j + c j * z j ^ 2)) (normals (Fin zd)) := by
  refine integrable_finsetSum _ fun j _ => ?_
  have h1 : Integrable (fun t : ℝ => t) (gaussianReal 0 1) := by
    have : MemLp (id : ℝ → ℝ) 1 (gaussianReal 0 1) := memLp_id_gaussianReal' 1 (by simp)
    exact memLp_one_iff_integrable.1 this
  have h2 : Integrable (fun t : ℝ => t ^ 2) (gaussianReal 0 1) := by
    have : MemLp (id : ℝ → ℝ) 2 (gaussianReal 0 1) := memLp_id_gaussianReal' 2 (by simp)
    exact this.integrable_sq
  have h : Integrable (fun t : ℝ => a j + b j * t + c j * t ^ 2) (gaussianReal 0 1) :=
    ((integrable_const _).add (h1.const_mul _)).add (h2.const_mul _)
  exact integrable_comp_eval (μ := fun _ : Fin zd => gaussianReal 0 1) (i := j) h

theorem logNormalsDer_eq (m l dm dl z : Fin zd → ℝ) : logNormalsDer m l dm dl z =
    ∑ j, ((-dl j + Real.exp (-2 * l j) * (dl j * m j ^ 2 - m j * dm j)) + Real.exp (-2 * l j) * (dm j - 2 * dl j * m j) * z j +
      Real.exp (-2 * l j) * dl j * z j ^ 2) := by
  unfold logNormalsDer
  exact Finset.sum_congr rfl fun j _ => by ring

theorem continuous_logNormalsDer (m l dm dl : Fin zd → ℝ) : Continuous (logNormalsDer m l dm dl) := by
  unfold logNormalsDer
  fun_prop

theorem integrable_der_draw (m l dm dl : Fin zd → ℝ) : Integrable (fun e => logNormalsDer m l dm dl (draw m l e)) (normals (Fin zd)) := by
  have e : (fun e => logNormalsDer m l dm dl (draw m l e)) = fun e : Fin zd → ℝ => ∑ j, (-dl j + Real.exp (-2 * l j) * Real.exp (l j) * dm j * e j +
      Real.exp (-2 * l j) * Real.exp (l j) ^ 2 * dl j * e j ^ 2) := by
    funext e
    unfold logNormalsDer draw Uni.Normal.sample
    exact Finset.sum_congr rfl fun j _ => by ring
  rw [e]
  exact integrable_quad _ _ _

theorem measurable_logJoint (g : Gen zd (C + 1) h1 h2 xd) (x : Fin xd → Bool) (y : Fin (C + 1)) : Measurable fun z => g.logJoint x y z := by
  have h := (lik_logLik (g.at y) x).cont
  rw [g.at_logits] at h
  have h2 : Continuous fun z : Fin zd → ℝ => logPrior z := by
    simp only [logPrior_eq]
    exact continuous_logNormals 0 0
  exact ((h2.add continuous_const).add h).measurable

theorem labeledQ_int (g : Gen zd (C + 1) h1 h2 xd) (q : Qz xd (C + 1) k1 k2 zd) (d : Dir zd (C + 1) xd) (x : Fin xd → Bool) (y : Fin (C + 1)) (K : ℕ) :
    Integrable (fun e => (labeledQ g q d x y e).der) (Measure.pi fun _ : Fin (K + 1) => normals (Fin zd)) := by
  simp only [labeledQ_der]
  refine integrable_finsetSum _ fun k _ => ?_
  have hs : ∀ k, Measurable fun e : Fin (K + 1) → Fin zd → ℝ => samples q x y e k := fun k =>
    (Vae.measurable_draw (q.mean x y) (q.logstd x y)).comp (measurable_pi_apply k)
  have hq : Measurable (logNormals (q.mean x y) (q.logstd x y)) := (continuous_logNormals _ _).measurable
  have hE : ∀ k, Measurable fun e : Fin (K + 1) → Fin zd → ℝ => Real.exp (g.logJoint x y (samples q x y e k) -
      logNormals (q.mean x y) (q.logstd x y) (samples q x y e k)) := fun k =>
    (((measurable_logJoint g x y).comp (hs k)).sub (hq.comp (hs k))).exp
  have hw : Measurable fun e : Fin (K + 1) → Fin zd → ℝ => (Grad.importanceWeight (fun k => .const (g.logJoint x y (samples q x y e k)))
      (fun k => logQz q d x y (samples q x y e k)) k).val := by
    simp only [Grad.importanceWeight_val, Grad.Dual.val_const, logQz]
    exact (hE k).div (Finset.measurable_fun_sum _ fun j _ => hE j)
  have hi : Integrable (fun e : Fin (K + 1) → Fin zd → ℝ => -(logQz q d x y (samples q x y e k)).der)
      (Measure.pi fun _ : Fin (K + 1) => normals (Fin zd)) :=
    (integrable_comp_eval (μ := fun _ : Fin (K + 1) => normals (Fin zd)) (i := k)
      (integrable_der_draw (q.mean x y) (q.logstd x y) (d.mean x y) (d.logstd x y))).neg
  refine hi.bdd_mul (c := 1) hw.aestronglyMeasurable (Filter.Eventually.of_forall fun e => ?_)
  obtain ⟨p1, p2⟩ := Grad.C45_weights (fun k => .const (g.logJoint x y (samples q x y e k))) (fun k => logQz q d x y (samples q x y e k))
  rw [Real.norm_of_nonneg (p1 k).le, ← p2]
  exact Finset.single_le_sum (f := fun k => (Grad.importanceWeight (fun k => .const (g.logJoint x y (samples q x y e k)))
    (fun k => logQz q d x y (samples q x y e k)) k).val) (fun j _ => (p1 j).le) (Finset.mem_univ k)

/-- **C107.** The expected derivative of the cost of the proposal for an unlabeled image, in any direction of change of the networks, is the mean of
those of the image labeled with each class, with the probabilities of the classifier.  The change of the classifier does not enter: no term is
left that moves the classifier towards the posterior of the classes. -/
theorem C107_adapt (g : Gen zd (C + 1) h1 h2 xd) (q : Qz xd (C + 1) k1 k2 zd) (qy : Qy xd c1 c2 (C + 1)) (d : Dir zd (C + 1) xd) (x : Fin xd → Bool)
    (K : ℕ) :
    ∫ y, ∫ e, (unlabeledQ g q qy d x y e).der ∂(Measure.pi fun _ : Fin (K + 1) => normals (Fin zd)) ∂(categoricalLaw (qy.logits (pixels x))) =
      ∑ c, Num.softmax (qy.logits (pixels x)) c * ∫ e, (labeledQ g q d x c e).der ∂(Measure.pi fun _ : Fin (K + 1) => normals (Fin zd)) := by
  have h : ∀ y, ∫ e, (unlabeledQ g q qy d x y e).der ∂(Measure.pi fun _ : Fin (K + 1) => normals (Fin zd)) =
      ∫ e, (labeledQ g q d x y e).der ∂(Measure.pi fun _ : Fin (K + 1) => normals (Fin zd)) - onehotDer (qy.logits (pixels x)) (d.logits x) y :=
    fun y => by
      simp only [unlabeledQ_der]
      rw [integral_sub (labeledQ_int g q d x y K) (integrable_const _)]
      simp
  rw [integral_categorical]
  simp only [h, mul_sub, Finset.sum_sub_distrib]
  rw [onehotDer_mean, sub_zero]

theorem labeledQ_zero (g : Gen zd (C + 1) h1 h2 xd) (q : Qz xd (C + 1) k1 k2 zd) (d : Dir zd (C + 1) xd) (hm : d.mean = 0) (hl : d.logstd = 0)
    (x : Fin xd → Bool) (y : Fin (C + 1)) (e : Fin (K + 1) → Fin zd → ℝ) : (labeledQ g q d x y e).der = 0 := by
  rw [labeledQ_der]
  simp [logQz, logNormalsDer, hm, hl]

/-- **C107.** In particular the expected derivative with respect to the variables of the classifier is zero: the unlabeled images do not adapt it.
(The claim was that the cost moves the proposal, which includes the classifier, towards the posterior.) -/
theorem C107_classifier (g : Gen zd (C + 1) h1 h2 xd) (q : Qz xd (C + 1) k1 k2 zd) (qy : Qy xd c1 c2 (C + 1)) (d : Dir zd (C + 1) xd)
    (hm : d.mean = 0) (hl : d.logstd = 0) (x : Fin xd → Bool) (K : ℕ) :
    ∫ y, ∫ e, (unlabeledQ g q qy d x y e).der ∂(Measure.pi fun _ : Fin (K + 1) => normals (Fin zd)) ∂(categoricalLaw (qy.logits (pixels x))) = 0 := by
  rw [C107_adapt]
  simp [labeledQ_zero g q d hm hl]

theorem unlabeledQ_int (g : Gen zd (C + 1) h1 h2 xd) (q : Qz xd (C + 1) k1 k2 zd) (qy : Qy xd c1 c2 (C + 1)) (d : Dir zd (C + 1) xd)
    (x : Fin xd → Bool) (K : ℕ) : Integrable (fun p => (unlabeledQ g q qy d x p.1 p.2).der) (unlabeledLaw zd qy K x) := by
  have h : ∀ y, Integrable (fun e => (unlabeledQ g q qy d x y e).der) (Measure.pi fun _ : Fin (K + 1) => normals (Fin zd)) := fun y => by
    simp only [unlabeledQ_der]
    exact (labeledQ_int g q d x y K).sub (integrable_const _)
  exact integrable_finite_prod (f := fun y e => (unlabeledQ g q qy d x y e).der) h

theorem hasDerivAt_logSoftmax {l : ℝ → Fin (C + 1) → ℝ} {dl : Fin (C + 1) → ℝ} (h : ∀ c, HasDerivAt (fun t => l t c) (dl c) 0) (y : Fin (C + 1)) :
    HasDerivAt (fun t => Real.log (Num.softmax (l t) y)) (onehotDer (l 0) dl y) 0 := by
  have hs : ∀ t, 0 < ∑ j, Real.exp (l t j) := fun t => Finset.sum_pos (fun k _ => Real.exp_pos _) ⟨0, Finset.mem_univ 0⟩
  have e : (fun t => Real.log (Num.softmax (l t) y)) = fun t => l t y - Real.log (∑ j, Real.exp (l t j)) := by
    funext t
    rw [Num.softmax, Real.log_div (Real.exp_pos _).ne' (hs t).ne', Real.log_exp]
  rw [e]
  have h1 : HasDerivAt (fun t => ∑ j, Real.exp (l t j)) (∑ j, Real.exp (l 0 j) * dl j) 0 := HasDerivAt.fun_sum fun j _ => (h j).exp
  have h2 := (h y).fun_sub (h1.log (hs 0).ne')
  have e2 : onehotDer (l 0) dl y = dl y - (∑ j, Real.exp (l 0 j) * dl j) / ∑ j, Real.exp (l 0 j) := by
    rw [onehotDer, Finset.sum_div]
    congr 1
    refine Finset.sum_congr rfl fun j _ => ?_
    rw [Ssl.softmax]
    ring
  rw [e2]
  exact h2

/-- **C107.** The expected derivative of the whole cost of the proposal: that of the labeled images, the mean over the classes for the unlabeled
images, and the derivative of the classification cost. -/
theorem C107_cost {n' : ℕ} (g : Gen zd (C + 1) h1 h2 xd) (q : Qz xd (C + 1) k1 k2 zd) (qy : Qy xd c1 c2 (C + 1)) (d : Dir zd (C + 1) xd)
    (beta : ℝ) (x : Fin n → Fin xd → Bool) (y : Fin n → Fin (C + 1)) (x' : Fin n' → Fin xd → Bool) (K : ℕ) :
    ∫ e, ∫ noise, (proposalCost (K := K) g q qy d beta x y e x' noise).der ∂(Measure.pi fun i => unlabeledLaw zd qy K (x' i))
        ∂(particles n (K + 1) zd) =
      (∑ i, ∫ e, (labeledQ g q d (x i) (y i) e).der ∂(Measure.pi fun _ : Fin (K + 1) => normals (Fin zd))) / n +
      (∑ i, ∑ c, Num.softmax (qy.logits (pixels (x' i))) c * ∫ e, (labeledQ g q d (x' i) c e).der ∂(Measure.pi fun _ : Fin (K + 1) => normals (Fin zd))) / n' +
      -beta * ((∑ i, onehotDer (qy.logits (pixels (x i))) (d.logits (x i)) (y i)) / n) := by
  have e1 : ∀ e noise, (proposalCost (K := K) g q qy d beta x y e x' noise).der =
      (∑ i, (labeledQ g q d (x i) (y i) (e i)).der) / n + (∑ i, (unlabeledQ g q qy d (x' i) (noise i).1 (noise i).2).der) / n' +
        -beta * ((∑ i, onehotDer (qy.logits (pixels (x i))) (d.logits (x i)) (y i)) / n) := fun e noise => by
    simp only [proposalCost, classifierCost, Grad.Dual.der_add, Grad.Dual.der_mul, Grad.Dual.der_const, Grad.Dual.val_const, Grad.reduceMean_der,
      zero_mul, zero_add]
    rfl
  have hu : ∀ i, Integrable (fun noise : Fin n' → Fin (C + 1) × (Fin (K + 1) → Fin zd → ℝ) => (unlabeledQ g q qy d (x' i) (noise i).1 (noise i).2).der)
      (Measure.pi fun i => unlabeledLaw zd qy K (x' i)) := fun i =>
    integrable_comp_eval (μ := fun i : Fin n' => unlabeledLaw zd qy K (x' i)) (i := i) (unlabeledQ_int g q qy d (x' i) K)
  have hl : ∀ i, Integrable (fun e : Fin n → Fin (K + 1) → Fin zd → ℝ => (labeledQ g q d (x i) (y i) (e i)).der) (particles n (K + 1) zd) := fun i =>
    integrable_comp_eval (μ := fun _ : Fin n => Measure.pi fun _ : Fin (K + 1) => normals (Fin zd)) (i := i) (labeledQ_int g q d (x i) (y i) K)
  have e2 : ∫ noise, (∑ i, (unlabeledQ g q qy d (x' i) (noise i).1 (noise i).2).der) / (n' : ℝ)
      ∂(Measure.pi fun i => unlabeledLaw zd qy K (x' i)) =
      (∑ i, ∑ c, Num.softmax (qy.logits (pixels (x' i))) c * ∫ e, (labeledQ g q d (x' i) c e).der ∂(Measure.pi fun _ : Fin (K + 1) => normals (Fin zd))) / n' := by
    rw [integral_div, integral_finsetSum _ fun i _ => hu i]
    refine congrArg (· / (n' : ℝ)) (Finset.sum_congr rfl fun i _ => ?_)
    refine (integral_comp_eval (μ := fun i : Fin n' => unlabeledLaw zd qy K (x' i)) (i := i)
      (unlabeledQ_int g q qy d (x' i) K).aestronglyMeasurable).trans ?_
    have h := unlabeledQ_int g q qy d (x' i) K
    unfold unlabeledLaw at h ⊢
    rw [integral_prod _ h]
    exact C107_adapt g q qy d (x' i) K
  have e3 : ∫ e, (∑ i, (labeledQ g q d (x i) (y i) (e i)).der) / (n : ℝ) ∂(particles n (K + 1) zd) =
      (∑ i, ∫ e, (labeledQ g q d (x i) (y i) e).der ∂(Measure.pi fun _ : Fin (K + 1) => normals (Fin zd))) / n := by
    rw [integral_div, integral_finsetSum _ fun i _ => hl i]
    refine congrArg (· / (n : ℝ)) (Finset.sum_congr rfl fun i _ => ?_)
    exact integral_comp_eval (μ := fun _ : Fin n => Measure.pi fun _ : Fin (K + 1) => normals (Fin zd)) (i := i)
      (labeledQ_int g q d (x i) (y i) K).aestronglyMeasurable
  have i2 : Integrable (fun noise : Fin n' → Fin (C + 1) × (Fin (K + 1) → Fin zd → ℝ) =>
      (∑ i, (unlabeledQ g q qy d (x' i) (noise i).1 (noise i).2).der) / (n' : ℝ)) (Measure.pi fun i => unlabeledLaw zd qy K (x' i)) :=
    (integrable_finsetSum _ fun i _ => hu i).div_const _
  have i3 : Integrable (fun e : Fin n → Fin (K + 1) → Fin zd → ℝ => (∑ i, (labeledQ g q d (x i) (y i) (e i)).der) / (n : ℝ)) (particles n (K + 1) zd) :=
    (integrable_finsetSum _ fun i _ => hl i).div_const _
  have e4 : ∀ e, ∫ noise, (proposalCost (K := K) g q qy d beta x y e x' noise).der ∂(Measure.pi fun i => unlabeledLaw zd qy K (x' i)) =
      (∑ i, (labeledQ g q d (x i) (y i) (e i)).der) / n + ((∑ i, ∑ c, Num.softmax (qy.logits (pixels (x' i))) c *
        ∫ e, (labeledQ g q d (x' i) c e).der ∂(Measure.pi fun _ : Fin (K + 1) => normals (Fin zd))) / n' +
        -beta * ((∑ i, onehotDer (qy.logits (pixels (x i))) (d.logits (x i)) (y i)) / n)) := fun e => by
    simp only [e1]
    have i4 : Integrable (fun noise : Fin n' → Fin (C + 1) × (Fin (K + 1) → Fin zd → ℝ) =>
        (∑ i, (labeledQ g q d (x i) (y i) (e i)).der) / n + (∑ i, (unlabeledQ g q qy d (x' i) (noise i).1 (noise i).2).der) / (n' : ℝ))
        (Measure.pi fun i => unlabeledLaw zd qy K (x' i)) := (integrable_const _).add i2
    rw [integral_add i4 (integrable_const _), integral_add (integrable_const _) i2, e2]
    simp only [integral_const, probReal_univ, one_smul]
    ring
  simp only [e4]
  have hp : IsProbabilityMeasure (particles n (K + 1) zd) := by unfold particles; infer_instance
  rw [integral_add i3 (integrable_const _), e3]
  simp only [integral_const, probReal_univ, one_smul]
  ring

/-- **C107.** What the classifier is trained for: on any path of classifiers, with the other networks fixed, the expected derivative of the whole cost of
the proposal is the derivative of the classification cost, minus `beta` times the mean log probability of the labels of the labeled images,
whatever the unlabeled images are. -/
theorem C107_training {n' : ℕ} (g : Gen zd (C + 1) h1 h2 xd) (q : Qz xd (C + 1) k1 k2 zd) (qy : ℝ → Qy xd c1 c2 (C + 1)) (d : Dir zd (C + 1) xd)
    (hd : ∀ x c, HasDerivAt (fun t => (qy t).logits (pixels x) c) (d.logits x c) 0) (hm : d.mean = 0) (hl : d.logstd = 0) (beta : ℝ)
    (x : Fin n → Fin xd → Bool) (y : Fin n → Fin (C + 1)) (x' : Fin n' → Fin xd → Bool) (K : ℕ) :
    HasDerivAt (fun t => -beta * ((∑ i, Real.log (Num.softmax ((qy t).logits (pixels (x i))) (y i))) / n))
      (∫ e, ∫ noise, (proposalCost (K := K) g q (qy 0) d beta x y e x' noise).der ∂(Measure.pi fun i => unlabeledLaw zd (qy 0) K (x' i))
        ∂(particles n (K + 1) zd)) 0 := by
  rw [C107_cost]
  simp only [labeledQ_zero g q d hm hl, integral_zero, mul_zero, Finset.sum_const_zero, zero_div, zero_add]
  have h3 : HasDerivAt (fun t => ∑ i, Real.log (Num.softmax ((qy t).logits (pixels (x i))) (y i)))
      (∑ i, onehotDer ((qy 0).logits (pixels (x i))) (d.logits (x i)) (y i)) 0 :=
    HasDerivAt.fun_sum fun i _ => hasDerivAt_logSoftmax (l := fun t => (qy t).logits (pixels (x i))) (fun c => hd (x i) c) (y i)
  exact (h3.div_const _).const_mul _

/-- A path that meets the conditions: the biases of the output of the classifier grow. -/
example {n' : ℕ} (g : Gen zd (C + 1) h1 h2 xd) (q : Qz xd (C + 1) k1 k2 zd) (qy : Qy xd c1 c2 (C + 1)) (v : Fin (C + 1) → ℝ) (beta : ℝ)
    (x : Fin n → Fin xd → Bool) (y : Fin n → Fin (C + 1)) (x' : Fin n' → Fin xd → Bool) (K : ℕ) :=
  C107_training g q (fun t => ⟨qy.l1, qy.l2, ⟨qy.l3.kernel, fun c => qy.l3.bias c + t * v c⟩⟩) ⟨fun _ => v, 0, 0⟩ (fun x c => by
    have h := (((hasDerivAt_id (0 : ℝ)).mul_const (v c)).const_add (qy.l3.bias c)).const_add
      (∑ i, relu (qy.l2.apply (relu (qy.l1.apply (pixels x)))) i * qy.l3.kernel i c)
    rw [one_mul] at h
    exact h) rfl rfl beta x y x' K

/-! ## The encoder -/

theorem draw_std : (draw (0 : Fin zd → ℝ) 0) = id := by
  funext e j
  simp [draw, Uni.Normal.sample]

theorem normals_density : normals (Fin zd) = volume.withDensity fun w => ENNReal.ofReal (Real.exp (logNormals 0 0 w)) := by
  rw [← draw_law, draw_std, Measure.map_id]

theorem latent_std {f : (Fin zd → ℝ) → ℝ} (hf : Lik f) (m l : Fin zd → ℝ) :
    Grad.LatentModel (normals (Fin zd)) (fun z => Real.exp (f z)) (fun z => Real.exp (logNormals m l z - logNormals 0 0 z)) ∧
      Grad.law (normals (Fin zd)) (fun z => Real.exp (logNormals m l z - logNormals 0 0 z)) = (normals (Fin zd)).map (draw m l) := by
  have h := Dropout.latent hf 0 0 m l
  rw [draw_std, Measure.map_id] at h
  exact ⟨h.1, h.2.1⟩

theorem posterior_int {f : (Fin zd → ℝ) → ℝ} (hf : Lik f) {u : (Fin zd → ℝ) → ℝ} (hu : Integrable u (normals (Fin zd))) :
    Integrable u (Grad.posterior (normals (Fin zd)) fun z => Real.exp (f z)) := by
  obtain ⟨c, hc⟩ := hf.bdd
  have hM := (latent_std hf 0 0).1
  rw [Grad.posterior, integrable_withDensity_iff (hM.p_meas.div_const _).ennreal_ofReal (Filter.Eventually.of_forall fun z => ENNReal.ofReal_lt_top)]
  refine hu.mul_bdd (c := Real.exp c / Grad.evidence (normals (Fin zd)) fun z => Real.exp (f z))
    (hM.p_meas.div_const _).ennreal_ofReal.ennreal_toReal.aestronglyMeasurable (Filter.Eventually.of_forall fun z => ?_)
  have hp : 0 ≤ Real.exp (f z) / Grad.evidence (normals (Fin zd)) fun z => Real.exp (f z) := div_nonneg (Real.exp_pos _).le hM.evidence_pos.le
  rw [ENNReal.toReal_ofReal hp, Real.norm_of_nonneg hp]
  exact div_le_div_of_nonneg_right (Real.exp_le_exp.2 (hc z)) hM.evidence_pos.le

theorem logNormals_quad (m l z : Fin zd → ℝ) : logNormals m l z = ∑ j, ((-0.5 * Real.log (2 * Real.pi) - l j - 0.5 * Real.exp (-2 * l j) * m j ^ 2) +
    Real.exp (-2 * l j) * m j * z j + -0.5 * Real.exp (-2 * l j) * z j ^ 2) := by
  unfold logNormals Uni.Normal.logProb
  exact Finset.sum_congr rfl fun j _ => by ring

theorem logNormals_int (m l : Fin zd → ℝ) : Integrable (logNormals m l) (normals (Fin zd)) := by
  have e : logNormals m l = fun z => _ := funext fun z => logNormals_quad m l z
  rw [e]
  exact integrable_quad _ _ _

/-- The divergence of the posterior from the proposal, in terms of the mean log density of the proposal. -/
theorem kl_eq {f : (Fin zd → ℝ) → ℝ} (hf : Lik f) (m l : Fin zd → ℝ) :
    klDiv (Grad.posterior (normals (Fin zd)) fun z => Real.exp (f z)) ((normals (Fin zd)).map (draw m l)) ≠ ⊤ ∧
    (klDiv (Grad.posterior (normals (Fin zd)) fun z => Real.exp (f z)) ((normals (Fin zd)).map (draw m l))).toReal =
      ∫ z, (f z + logNormals 0 0 z - Real.log (Grad.evidence (normals (Fin zd)) fun z => Real.exp (f z)))
        ∂(Grad.posterior (normals (Fin zd)) fun z => Real.exp (f z)) -
      ∫ z, logNormals m l z ∂(Grad.posterior (normals (Fin zd)) fun z => Real.exp (f z)) := by
  have hM := (latent_std hf m l).1
  have hE := hM.evidence_pos
  set E := Grad.evidence (normals (Fin zd)) fun z => Real.exp (f z) with hEd
  set μ := Grad.posterior (normals (Fin zd)) fun z => Real.exp (f z) with hμ
  have hN : IsProbabilityMeasure (normals (Fin zd)) := by unfold normals; infer_instance
  have hν : IsProbabilityMeasure ((normals (Fin zd)).map (draw m l)) := Measure.isProbabilityMeasure_map (measurable_draw m l).aemeasurable
  have hdm : Measurable fun z => ENNReal.ofReal (Real.exp (f z + logNormals 0 0 z - logNormals m l z) / E) :=
    (((hf.cont.add (continuous_logNormals 0 0)).sub (continuous_logNormals m l)).rexp.measurable.div_const _).ennreal_ofReal
  have e1 : μ = ((normals (Fin zd)).map (draw m l)).withDensity fun z => ENNReal.ofReal (Real.exp (f z + logNormals 0 0 z - logNormals m l z) / E) := by
    rw [hμ, Grad.posterior, draw_law]
    conv_lhs => rw [normals_density]
    rw [← withDensity_mul _ (continuous_logNormals 0 0).rexp.measurable.ennreal_ofReal (hM.p_meas.div_const _).ennreal_ofReal,
      ← withDensity_mul _ (continuous_logNormals m l).rexp.measurable.ennreal_ofReal hdm]
    congr 1
    funext z
    simp only [Pi.mul_apply]
    rw [← ENNReal.ofReal_mul (Real.exp_pos _).le, ← ENNReal.ofReal_mul (Real.exp_pos _).le, ← normals_density, ← hEd, ← mul_div_assoc, ← mul_div_assoc,
      ← Real.exp_add, ← Real.exp_add]
    congr 3
    ring
  have hac : μ ≪ (normals (Fin zd)).map (draw m l) := by
    rw [e1]
    exact withDensity_absolutelyContinuous _ _
  have hμp : IsProbabilityMeasure μ := by
    refine ⟨?_⟩
    rw [hμ, Grad.posterior, withDensity_apply _ MeasurableSet.univ, Measure.restrict_univ,
      ← ofReal_integral_eq_lintegral_ofReal (hM.p_int.div_const _) (Filter.Eventually.of_forall fun z => div_nonneg (Real.exp_pos _).le hE.le),
      integral_div, ← Grad.evidence, div_self hE.ne', ENNReal.ofReal_one]
  have e2 : llr μ ((normals (Fin zd)).map (draw m l)) =ᵐ[μ] fun z => f z + logNormals 0 0 z - Real.log E - logNormals m l z := by
    have h := hac.ae_le (e1 ▸ Measure.rnDeriv_withDensity ((normals (Fin zd)).map (draw m l)) hdm)
    filter_upwards [h] with z hz
    rw [llr, hz, ENNReal.toReal_ofReal (div_nonneg (Real.exp_pos _).le hE.le), Real.log_div (Real.exp_pos _).ne' hE.ne', Real.log_exp]
    ring
  have i1 : Integrable f (normals (Fin zd)) := by
    obtain ⟨c, k, h0, h⟩ := hf.growth
    have := integrable_encoded tame_id 0 0 hf.cont.measurable h0 h
    rw [draw_std] at this
    exact this
  have i2 : Integrable (fun z => f z + logNormals 0 0 z - Real.log E) μ :=
    posterior_int hf ((i1.add (logNormals_int 0 0)).sub (integrable_const _))
  have i3 : Integrable (logNormals m l) μ := posterior_int hf (logNormals_int m l)
  have i4 : Integrable (llr μ ((normals (Fin zd)).map (draw m l))) μ := (i2.sub i3).congr e2.symm
  refine ⟨klDiv_ne_top hac i4, ?_⟩
  rw [toReal_klDiv_of_measure_eq hac (by rw [hμp.measure_univ, hν.measure_univ]), integral_congr_ae e2, integral_sub i2 i3]

theorem quad_integral {μ : Measure (Fin zd → ℝ)} [IsProbabilityMeasure μ] (h1 : ∀ j, Integrable (fun z : Fin zd → ℝ => z j) μ)
    (h2 : ∀ j, Integrable (fun z : Fin zd → ℝ => z j ^ 2) μ) (a b c : Fin zd → ℝ) :
    ∫ z, ∑ j, (a j + b j * z j + c j * z j ^ 2) ∂μ = ∑ j, (a j + b j * ∫ z, z j ∂μ + c j * ∫ z, z j ^ 2 ∂μ) := by
  have i : ∀ j, Integrable (fun z : Fin zd → ℝ => a j + b j * z j) μ := fun j => (integrable_const _).add ((h1 j).const_mul _)
  have i2 : ∀ j, Integrable (fun z : Fin zd → ℝ => a j + b j * z j + c j * z j ^ 2) μ := fun j => (i j).add ((h2 j).const_mul _)
  rw [integral_finsetSum _ fun j _ => i2 j]
  refine Finset.sum_congr rfl fun j _ => ?_
  rw [integral_add (i j) ((h2 j).const_mul _), integral_add (integrable_const _) ((h1 j).const_mul _), integral_const_mul, integral_const_mul]
  simp

/-- The mean of the modelled derivative is the derivative of the mean log density. -/
theorem hasDerivAt_cross {μ : Measure (Fin zd → ℝ)} [IsProbabilityMeasure μ] (h1 : ∀ j, Integrable (fun z : Fin zd → ℝ => z j) μ)
    (h2 : ∀ j, Integrable (fun z : Fin zd → ℝ => z j ^ 2) μ) {m l : ℝ → Fin zd → ℝ} {dm dl : Fin zd → ℝ}
    (hm : ∀ j, HasDerivAt (fun t => m t j) (dm j) 0) (hl : ∀ j, HasDerivAt (fun t => l t j) (dl j) 0) :
    HasDerivAt (fun t => ∫ z, logNormals (m t) (l t) z ∂μ) (∫ z, logNormalsDer (m 0) (l 0) dm dl z ∂μ) 0 := by
  simp only [logNormals_quad, logNormalsDer_eq, quad_integral h1 h2]
  refine HasDerivAt.fun_sum fun j _ => ?_
  have he : HasDerivAt (fun t => Real.exp (-2 * l t j)) (Real.exp (-2 * l 0 j) * (-2 * dl j)) 0 := ((hl j).const_mul _).exp
  have ha : HasDerivAt (fun t => -0.5 * Real.log (2 * Real.pi) - l t j - 0.5 * Real.exp (-2 * l t j) * m t j ^ 2)
      (-dl j + Real.exp (-2 * l 0 j) * (dl j * m 0 j ^ 2 - m 0 j * dm j)) 0 := by
    refine (((hl j).const_sub _).fun_sub ((he.const_mul 0.5).fun_mul ((hm j).fun_pow 2))).congr_deriv ?_
    norm_num
    ring
  have hb : HasDerivAt (fun t => Real.exp (-2 * l t j) * m t j) (Real.exp (-2 * l 0 j) * (dm j - 2 * dl j * m 0 j)) 0 :=
    (he.fun_mul (hm j)).congr_deriv (by ring)
  have hc : HasDerivAt (fun t => -0.5 * Real.exp (-2 * l t j)) (Real.exp (-2 * l 0 j) * dl j) 0 := (he.const_mul (-0.5)).congr_deriv (by ring)
  exact (ha.fun_add (hb.mul_const _)).fun_add (hc.mul_const _)

/-- **C107.** On any path of encoders, the derivative of the cost of the proposal for a labeled image converges, with more and more independent
particles, to the derivative of the divergence of the posterior of the latent vector, given the image and its class, from the distribution that
the encoder draws from. -/
theorem C107_encoder (g : Gen zd (C + 1) h1 h2 xd) (q : ℝ → Qz xd (C + 1) k1 k2 zd) (d : Dir zd (C + 1) xd) (x : Fin xd → Bool) (y : Fin (C + 1))
    (hm : ∀ j, HasDerivAt (fun t => (q t).mean x y j) (d.mean x y j) 0) (hl : ∀ j, HasDerivAt (fun t => (q t).logstd x y j) (d.logstd x y j) 0)
    {Ω : Type} [MeasurableSpace Ω] {P : Measure Ω} (ε : ℕ → Ω → Fin zd → ℝ) (hε : ∀ i, Measurable (ε i))
    (hind : Pairwise fun i j => IndepFun (ε i) (ε j) P) (hlaw : ∀ i, P.map (ε i) = normals (Fin zd)) :
    (∀ t, klDiv (posterior (fun z => g.logits z y) x) ((normals (Fin zd)).map (draw ((q t).mean x y) ((q t).logstd x y))) ≠ ⊤) ∧
    ∃ D, HasDerivAt (fun t => (klDiv (posterior (fun z => g.logits z y) x)
        ((normals (Fin zd)).map (draw ((q t).mean x y) ((q t).logstd x y)))).toReal) D 0 ∧
      ∀ᵐ ω ∂P, Filter.Tendsto (fun K : ℕ => (labeledQ g (q 0) d x y fun k : Fin (K + 1) => ε k ω).der) Filter.atTop (nhds D) := by
  have hf : Lik fun z => logLik (g.logits z y) x := by
    have h := lik_logLik (g.at y) x
    rwa [g.at_logits] at h
  have hp : posterior (fun z => g.logits z y) x = Grad.posterior (normals (Fin zd)) fun z => Real.exp (logLik (g.logits z y) x) := by
    have h := posterior_eq (g.at y) x
    rw [g.at_logits] at h
    exact h.symm
  rw [hp]
  refine ⟨fun t => (kl_eq hf _ _).1, ∫ z, -logNormalsDer ((q 0).mean x y) ((q 0).logstd x y) (d.mean x y) (d.logstd x y) z
    ∂(Grad.posterior (normals (Fin zd)) fun z => Real.exp (logLik (g.logits z y) x)), ?_, ?_⟩
  · simp only [(kl_eq hf _ _).2]
    rw [integral_neg]
    have hM := (latent_std hf 0 0).1
    have hμp : IsProbabilityMeasure (Grad.posterior (normals (Fin zd)) fun z => Real.exp (logLik (g.logits z y) x)) := by
      refine ⟨?_⟩
      rw [Grad.posterior, withDensity_apply _ MeasurableSet.univ, Measure.restrict_univ,
        ← ofReal_integral_eq_lintegral_ofReal (hM.p_int.div_const _) (Filter.Eventually.of_forall fun z => div_nonneg (Real.exp_pos _).le hM.evidence_pos.le),
        integral_div, ← Grad.evidence, div_self hM.evidence_pos.ne', ENNReal.ofReal_one]
    have hq : ∀ a b c : Fin zd → ℝ, Integrable (fun z : Fin zd → ℝ => ∑ j, (a j + b j * z j + c j * z j ^ 2))
        (Grad.posterior (normals (Fin zd)) fun z => Real.exp (logLik (g.logits z y) x)) := fun a b c => posterior_int hf (integrable_quad a b c)
    refine HasDerivAt.const_sub _ (hasDerivAt_cross (fun j => ?_) (fun j => ?_) hm hl)
    · exact (hq 0 (Pi.single j 1) 0).congr (Filter.Eventually.of_forall fun z => by simp [Pi.single_apply])
    · exact (hq 0 0 (Pi.single j 1)).congr (Filter.Eventually.of_forall fun z => by simp [Pi.single_apply])
  · obtain ⟨hM, hL⟩ := latent_std hf ((q 0).mean x y) ((q 0).logstd x y)
    have hD := continuous_logNormalsDer ((q 0).mean x y) ((q 0).logstd x y) (d.mean x y) (d.logstd x y)
    have hi : Integrable (fun z => Real.exp (logLik (g.logits z y) x) *
        logNormalsDer ((q 0).mean x y) ((q 0).logstd x y) (d.mean x y) (d.logstd x y) z) (normals (Fin zd)) := by
      obtain ⟨c, hc⟩ := hf.bdd
      have h0 : Integrable (logNormalsDer ((q 0).mean x y) ((q 0).logstd x y) (d.mean x y) (d.logstd x y)) (normals (Fin zd)) := by
        have e : logNormalsDer ((q 0).mean x y) ((q 0).logstd x y) (d.mean x y) (d.logstd x y) = fun z => _ := funext fun z => logNormalsDer_eq _ _ _ _ z
        rw [e]
        exact integrable_quad _ _ _
      refine h0.bdd_mul (c := Real.exp c) hf.cont.rexp.aestronglyMeasurable (Filter.Eventually.of_forall fun z => ?_)
      rw [Real.norm_of_nonneg (Real.exp_pos _).le]
      exact Real.exp_le_exp.2 (hc z)
    have mS := measurable_draw ((q 0).mean x y) ((q 0).logstd x y)
    have h := Grad.C45_consistent (P := P) (lpder := fun _ => 0) (fun z => Real.exp_pos _) (fun z => Real.exp_pos _) hM hD.measurable hi
      (fun i ω => draw ((q 0).mean x y) ((q 0).logstd x y) (ε i ω)) (fun i => mS.comp (hε i)) (fun i j hij => (hind hij).comp mS mS) (fun i => by
        rw [hL, ← hlaw i, Measure.map_map mS (hε i)]
        rfl)
    filter_upwards [h] with ω hω
    refine hω.congr fun K => ?_
    have hs : ∀ k : Fin (K + 1), samples (q 0) x y (fun k => ε k ω) k = draw ((q 0).mean x y) ((q 0).logstd x y) (ε k ω) := fun k => rfl
    rw [labeledQ, (Grad.C45_gradient _ _).2.2, (Grad.C45_gradient _ _).2.2]
    refine Finset.sum_congr rfl fun k _ => ?_
    have hw : ∀ k : Fin (K + 1), Real.exp (g.logJoint x y (samples (q 0) x y (fun k => ε k ω) k) -
        logNormals ((q 0).mean x y) ((q 0).logstd x y) (samples (q 0) x y (fun k => ε k ω) k)) = Real.exp (Ssl.logPriorY y) *
        Real.exp (logLik (g.logits (draw ((q 0).mean x y) ((q 0).logstd x y) (ε k ω)) y) x -
          (logNormals ((q 0).mean x y) ((q 0).logstd x y) (draw ((q 0).mean x y) ((q 0).logstd x y) (ε k ω)) -
            logNormals 0 0 (draw ((q 0).mean x y) ((q 0).logstd x y) (ε k ω)))) := fun k => by
      rw [← Real.exp_add, hs]
      congr 1
      simp only [Ssl.Gen.logJoint, logPrior_eq]
      ring
    simp only [Grad.importanceWeight_val, Real.log_exp, Grad.Dual.val_const, logQz, hw, ← Finset.mul_sum]
    rw [mul_div_mul_left _ _ (Real.exp_pos _).ne']
    rfl

/-- Independent draws exist, and encoders that are changed by a constant have these derivatives. -/
example (g : Gen zd (C + 1) h1 h2 xd) (q : Qz xd (C + 1) k1 k2 zd) (x : Fin xd → Bool) (y : Fin (C + 1)) :=
  C107_encoder g (fun _ => q) ⟨fun _ _ => 0, fun _ _ _ => 0, fun _ _ _ => 0⟩ x y (fun j => hasDerivAt_const _ _) (fun j => hasDerivAt_const _ _)
    (P := Measure.infinitePi fun _ : ℕ => normals (Fin zd)) (fun i ω => ω i) (fun i => measurable_pi_apply i)
    (fun _ _ h => (iIndepFun_infinitePi (fun _ => measurable_id)).indepFun h) (fun i => by
      exact (measurePreserving_eval_infinitePi (fun _ : ℕ => normals (Fin zd)) i).map_eq)

end

end ZhuSuan.SslIs
