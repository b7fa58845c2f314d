import Mathlib.Analysis.Normed.Group.Constructions
import Mathlib.Analysis.SpecialFunctions.Trigonometric.DerivHyp
import Mathlib.MeasureTheory.Constructions.Polish.Basic
import Verif.Lemmas.PiMeasure
import Verif.Model.Vae
import Verif.Props.Elbo
import Verif.Props.IsLogLik
import Verif.Props.IwTight
import Verif.Props.MinibatchVi
import Verif.Props.Transform
import Verif.Spec.Vae

/-!
# A normal latent vector, its encoder with flows, and the objectives
-/

set_option autoImplicit false

open MeasureTheory ProbabilityTheory InformationTheory

namespace ZhuSuan.Vae

open Transform Matrix

section
variable {ι : Type} [Fintype ι]

instance : IsProbabilityMeasure (normals ι) := by unfold normals; infer_instance

theorem continuous_logNormals (m l : ι → ℝ) : Continuous (logNormals m l) := by
  unfold logNormals Uni.Normal.logProb
  fun_prop

theorem logPrior_eq (z : ι → ℝ) : logPrior z = logNormals 0 0 z := by simp [logPrior, logNormals]

omit [Fintype ι] in
theorem measurable_draw (m l : ι → ℝ) : Measurable (draw m l) :=
  measurable_pi_lambda _ fun j => ((measurable_pi_apply j).mul_const _).add_const _

/-- The law of the draws. -/
theorem draw_law (m l : ι → ℝ) : (normals ι).map (draw m l) =
    volume.withDensity fun w => ENNReal.ofReal (Real.exp (logNormals m l w)) := by
  have hm : ∀ j, Measurable (Uni.Normal.sample (m j) (Real.exp (l j))) := fun j => by unfold Uni.Normal.sample; fun_prop
  have h1 : ∀ j, (gaussianReal 0 1).map (Uni.Normal.sample (m j) (Real.exp (l j))) =
      volume.withDensity (fun x => ENNReal.ofReal (Real.exp (Uni.Normal.logProb (m j) (l j) x))) := fun j =>
    Uni.C18_sampler (m j) (.logstd (l j)) trivial
  have h2 : ∀ j, IsProbabilityMeasure
      ((volume : Measure ℝ).withDensity (fun x => ENNReal.ofReal (Real.exp (Uni.Normal.logProb (m j) (l j) x)))) := fun j => by
    rw [← h1 j]
    exact Measure.isProbabilityMeasure_map (hm j).aemeasurable
  have e : draw m l = fun z j => Uni.Normal.sample (m j) (Real.exp (l j)) (z j) := rfl
  have h3 := Measure.pi_map_pi (μ := fun _ : ι => gaussianReal 0 1)
    (f := fun j => Uni.Normal.sample (m j) (Real.exp (l j))) fun j => (hm j).aemeasurable
  rw [normals, e, h3]
  simp only [h1]
  rw [Meas.pi_withDensity (μ := fun _ : ι => (volume : Measure ℝ)) _ fun j => by unfold Uni.Normal.logProb; fun_prop, volume_pi]
  congr 1
  funext w
  rw [logNormals, Real.exp_sum, ENNReal.ofReal_prod_of_nonneg fun _ _ => (Real.exp_pos _).le]

theorem normals_density : normals ι = volume.withDensity fun w => ENNReal.ofReal (Real.exp (logPrior w)) := by
  simp only [logPrior_eq]
  rw [← draw_law]
  have : draw (0 : ι → ℝ) 0 = id := by funext z j; simp [draw, Uni.Normal.sample]
  rw [this, Measure.map_id]

/-- Without flows, the law of the draws is a product of normal distributions. -/
theorem draw_normal (m l : ι → ℝ) :
    (normals ι).map (draw m l) = Measure.pi fun j => gaussianReal (m j) (Uni.sq (Real.exp (l j))) := by
  have h3 := Measure.pi_map_pi (μ := fun _ : ι => gaussianReal 0 1)
    (f := fun j => Uni.Normal.sample (m j) (Real.exp (l j))) fun j => by unfold Uni.Normal.sample; fun_prop
  refine h3.trans ?_
  congr 1
  funext j
  refine (Uni.C18_sampler (m j) (.logstd (l j)) trivial).trans ?_
  rw [gaussianReal_of_var_ne_zero _ (Uni.sq_ne_zero (Real.exp_pos _))]
  congr 1
  funext x
  rw [gaussianPDF]
  congr 1
  exact Uni.C18_density (m j) (.logstd (l j)) trivial x

theorem memLp_draw (m l : ι → ℝ) (p : ℕ) : MemLp (draw m l) p (normals ι) := by
  have h1 : MemLp (id : ℝ → ℝ) p (gaussianReal 0 1) := memLp_id_gaussianReal' p (by simp)
  have h : ∀ j, MemLp (fun z : ι → ℝ => z j) p (normals ι) := fun j =>
    h1.comp_measurePreserving (measurePreserving_eval (fun _ : ι => gaussianReal 0 1) j)
  have h2 : ∀ j, MemLp (fun z => ‖draw m l z j‖) p (normals ι) := fun j =>
    (((h j).mul_const (Real.exp (l j))).add (memLp_const (m j))).norm
  refine (memLp_finsetSum Finset.univ fun j _ => h2 j).mono (measurable_draw m l).aestronglyMeasurable (Filter.Eventually.of_forall fun z => ?_)
  rw [Real.norm_of_nonneg (Finset.sum_nonneg fun j _ => norm_nonneg _)]
  exact (pi_norm_le_iff_of_nonneg (Finset.sum_nonneg fun j _ => norm_nonneg _)).2 fun j =>
    Finset.single_le_sum (f := fun j => ‖draw m l z j‖) (fun j _ => norm_nonneg _) (Finset.mem_univ j)

theorem logNormals_growth (m l : ι → ℝ) : ∃ c : ℝ, 0 ≤ c ∧ ∀ w : ι → ℝ, |logNormals m l w| ≤ c * (1 + ‖w‖) ^ 2 := by
  refine ⟨∑ j, (|-0.5 * Real.log (2 * Real.pi) - l j| + 0.5 * Real.exp (-2 * l j) * (1 + |m j|) ^ 2), by positivity, fun w => ?_⟩
  rw [Finset.sum_mul]
  refine (Finset.abs_sum_le_sum_abs _ _).trans (Finset.sum_le_sum fun j _ => ?_)
  refine (Minibatch.abs_logProb _ _ _).trans ?_
  have h0 := norm_nonneg w
  have h1 : |w j| + |m j| ≤ (1 + |m j|) * (1 + ‖w‖) := by
    have : |w j| ≤ ‖w‖ := norm_le_pi_norm w j
    nlinarith [abs_nonneg (m j)]
  have h3 : (|w j| + |m j|) ^ 2 ≤ (1 + |m j|) ^ 2 * (1 + ‖w‖) ^ 2 := by
    rw [← mul_pow]
    exact pow_le_pow_left₀ (by positivity) h1 2
  have h4 : 1 ≤ (1 + ‖w‖) ^ 2 := one_le_pow₀ (by linarith)
  have h5 := mul_le_mul_of_nonneg_left h3 (show 0 ≤ 0.5 * Real.exp (-2 * l j) by positivity)
  nlinarith [abs_nonneg (-0.5 * Real.log (2 * Real.pi) - l j)]

/-! ## Flows -/

/-- A flow that moves points and changes log densities by bounded amounts. -/
def Tame (F : (ι → ℝ) × ℝ → (ι → ℝ) × ℝ) : Prop :=
  Flow.IsFlow F ∧ ∃ c, 0 ≤ c ∧ ∀ z l, ‖(F (z, l)).1‖ ≤ ‖z‖ + c ∧ |(F (z, l)).2 - l| ≤ c

theorem Tame.comp {F G : (ι → ℝ) × ℝ → (ι → ℝ) × ℝ} (hG : Tame G) (hF : Tame F) : Tame (G ∘ F) := by
  obtain ⟨g1, a, ha, g2⟩ := hG
  obtain ⟨f1, c, hc, f2⟩ := hF
  refine ⟨g1.comp f1, c + a, by positivity, fun z l => ⟨?_, ?_⟩⟩
  · have h1 := (g2 (F (z, l)).1 (F (z, l)).2).1
    have h2 := (f2 z l).1
    show ‖(G ((F (z, l)).1, (F (z, l)).2)).1‖ ≤ _
    linarith
  · have h1 := (g2 (F (z, l)).1 (F (z, l)).2).2
    have h2 := (f2 z l).2
    show |(G ((F (z, l)).1, (F (z, l)).2)).2 - l| ≤ _
    calc _ = |((G ((F (z, l)).1, (F (z, l)).2)).2 - (F (z, l)).2) + ((F (z, l)).2 - l)| := by congr 1; ring
      _ ≤ a + c := (abs_add_le _ _).trans (add_le_add h1 h2)
      _ = c + a := add_comm _ _

theorem tame_id : Tame (id : (ι → ℝ) × ℝ → (ι → ℝ) × ℝ) := ⟨Flow.isFlow_id, 0, le_rfl, fun z l => by simp⟩

theorem tame_step (p : Planar ι) (hw : p.w ≠ 0) : Tame (planarStep p) := by
  have hI : Flow.IsFlow (planarStep p) := by
    have := planarFlow_isFlow [p] (by simpa using hw)
    exact this
  have hs := C64_constraint p hw
  refine ⟨hI, ‖p.u‖ + (|Real.log (1 + p.scalar)| + |Real.log (1 + |p.scalar|)|), by positivity, fun z l => ⟨?_, ?_⟩⟩
  · rw [planarStep_fst]
    have h1 : ‖Real.tanh (z ⬝ᵥ p.w + p.b) • p.u‖ ≤ ‖p.u‖ := by
      rw [norm_smul, Real.norm_eq_abs]
      have : |Real.tanh (z ⬝ᵥ p.w + p.b)| ≤ 1 := (Real.abs_tanh_lt_one _).le
      nlinarith [norm_nonneg p.u]
    have h2 := norm_add_le z (Real.tanh (z ⬝ᵥ p.w + p.b) • p.u)
    have : 0 ≤ |Real.log (1 + p.scalar)| + |Real.log (1 + |p.scalar|)| := by positivity
    linarith
  · set a := Real.tanh (z ⬝ᵥ p.w + p.b) with ha
    have h1 : a ^ 2 < 1 := by rw [← sq_abs]; nlinarith [Real.abs_tanh_lt_one (z ⬝ᵥ p.w + p.b), abs_nonneg a]
    have e : (planarStep p (z, l)).2 - l = -Real.log (p.scalar * (1 - a * a) + 1) := by
      simp only [planarStep, ← ha]
      ring
    rw [e, abs_neg]
    have hpos := det_pos_aux p.scalar a hs h1
    have hu : Real.log (p.scalar * (1 - a * a) + 1) ≤ Real.log (1 + |p.scalar|) :=
      Real.log_le_log hpos (by nlinarith [le_abs_self p.scalar, abs_nonneg p.scalar, sq_nonneg a])
    have hl : -|Real.log (1 + p.scalar)| ≤ Real.log (p.scalar * (1 - a * a) + 1) := by
      rcases le_or_gt 0 p.scalar with h | h
      · have : 0 ≤ Real.log (p.scalar * (1 - a * a) + 1) := Real.log_nonneg (by nlinarith)
        linarith [abs_nonneg (Real.log (1 + p.scalar))]
      · have : Real.log (1 + p.scalar) ≤ Real.log (p.scalar * (1 - a * a) + 1) :=
          Real.log_le_log (by linarith) (by nlinarith [sq_nonneg a])
        linarith [neg_abs_le (Real.log (1 + p.scalar))]
    have h0 := norm_nonneg p.u
    have h3 := abs_nonneg (Real.log (1 + p.scalar))
    have h4 := abs_nonneg (Real.log (1 + |p.scalar|))
    have h5 := le_abs_self (Real.log (1 + |p.scalar|))
    rw [abs_le]
    constructor <;> linarith

theorem tame_planar (ps : List (Planar ι)) (hps : ∀ p ∈ ps, p.w ≠ 0) : Tame (planarFlow ps) := by
  induction ps with
  | nil => exact tame_id
  | cons p ps ih =>
    exact (ih fun p' hp' => hps p' (by simp [hp'])).comp (F := planarStep p) (tame_step p (hps p (by simp)))

theorem tame_flows (flows : List (List (Planar ι))) (h : ∀ ps ∈ flows, ∀ p ∈ ps, p.w ≠ 0) :
    Tame fun s : (ι → ℝ) × ℝ => flows.foldl (fun s ps => planarFlow ps s) s := by
  induction flows with
  | nil => exact tame_id
  | cons ps fl ih =>
    exact (ih fun ps' hp' => h ps' (by simp [hp'])).comp (F := planarFlow ps) (tame_planar ps (h ps (by simp)))

theorem Tame.embedding {F : (ι → ℝ) × ℝ → (ι → ℝ) × ℝ} (hF : Tame F) : MeasurableEmbedding fun z => (F (z, 0)).1 := by
  have hc : Continuous fun z => (F (z, 0)).1 := continuous_iff_continuousAt.2 fun z => by
    obtain ⟨f', hf, _⟩ := hF.1.2.2 z
    exact hf.continuousAt
  exact hc.measurableEmbedding hF.1.2.1.1

/-! ## The latent variable model of a likelihood and an encoder -/

/-- A log likelihood that is continuous, bounded above and grows polynomially. -/
structure Lik (f : (ι → ℝ) → ℝ) : Prop where
  cont : Continuous f
  bdd : ∃ C, ∀ z, f z ≤ C
  growth : ∃ c k, 0 ≤ c ∧ ∀ z, |f z| ≤ c * (1 + ‖z‖) ^ (k : ℕ)

theorem integrable_encoded {F : (ι → ℝ) × ℝ → (ι → ℝ) × ℝ} (hF : Tame F) (m l : ι → ℝ) {g : (ι → ℝ) → ℝ} (hg : Measurable g)
    {c : ℝ} {k : ℕ} (h0 : 0 ≤ c) (h : ∀ z, |g z| ≤ c * (1 + ‖z‖) ^ k) :
    Integrable (fun e => g (F (draw m l e, 0)).1) (normals ι) := by
  obtain ⟨hI, a, ha, hb⟩ := hF
  have hm : Measurable fun e => (F (draw m l e, 0)).1 := (Tame.embedding ⟨hI, a, ha, hb⟩).measurable.comp (measurable_draw m l)
  refine Minibatch.integrable_poly (Z := draw m l) (memLp_draw m l) (hg.comp hm).aestronglyMeasurable (c * (1 + a) ^ k) k fun e => ?_
  refine (h _).trans ?_
  rw [mul_assoc, ← mul_pow]
  refine mul_le_mul_of_nonneg_left (pow_le_pow_left₀ (by positivity) ?_ k) h0
  have := (hb (draw m l e) 0).1
  nlinarith [norm_nonneg (draw m l e)]

/-- The log density `r` of the encoded sample relative to the prior; with it the likelihood and the encoder satisfy the hypotheses of the
theorems about the objectives. -/
theorem latent {f : (ι → ℝ) → ℝ} (hf : Lik f) (m l : ι → ℝ) (flows : List (List (Planar ι))) (hw : ∀ ps ∈ flows, ∀ p ∈ ps, p.w ≠ 0) :
    Measurable (fun e => (encode m l flows e).1) ∧
    ∃ r : (ι → ℝ) → ℝ, Measurable r ∧ (∀ e, r (encode m l flows e).1 = (encode m l flows e).2 - logPrior (encode m l flows e).1) ∧
      Grad.LatentModel (normals ι) (fun z => Real.exp (f z)) (fun z => Real.exp (r z)) ∧
      Grad.law (normals ι) (fun z => Real.exp (r z)) = (normals ι).map (fun e => (encode m l flows e).1) ∧
      Integrable (fun z => f z - r z) ((normals ι).map (fun e => (encode m l flows e).1)) := by
  set F : (ι → ℝ) × ℝ → (ι → ℝ) × ℝ := fun s => flows.foldl (fun s ps => planarFlow ps s) s with hF
  have hT : Tame F := tame_flows flows hw
  set L := logNormals m l with hL
  have eS : ∀ e, encode m l flows e = F (draw m l e, L (draw m l e)) := fun e => rfl
  have e1 : ∀ e, (encode m l flows e).1 = (F (draw m l e, 0)).1 := fun e => by rw [eS]; exact hT.1.1 _ _ _
  have mS : Measurable fun e => (encode m l flows e).1 := by
    simp only [e1]
    exact hT.embedding.measurable.comp (measurable_draw m l)
  obtain ⟨qd, hq, -⟩ := hT.1.exists_unique L
  have hden := hT.1.density L qd hq
  -- the density is measurable
  have mq2 : Measurable fun z => (F (z, L z)).2 := by
    have h : ∀ z, ∃ f' : (ι → ℝ) →L[ℝ] (ι → ℝ), HasFDerivAt (fun z => (F (z, 0)).1) f' z ∧ f'.det ≠ 0 ∧
        ∀ l, (F (z, l)).2 = l - Real.log |f'.det| := hT.1.2.2
    have e : (fun z => (F (z, L z)).2) = fun z => L z - Real.log |(fderiv ℝ (fun z => (F (z, 0)).1) z).det| := by
      funext z
      obtain ⟨f', h1, _, h3⟩ := h z
      rw [h3, h1.fderiv]
    rw [e]
    have h2 : Measurable fun z => (fderiv ℝ (fun z => (F (z, 0)).1) z).det :=
      ContinuousLinearMap.continuous_det.measurable.comp (measurable_fderiv ℝ _)
    have h3 : Measurable fun z => |(fderiv ℝ (fun z => (F (z, 0)).1) z).det| := continuous_abs.measurable.comp h2
    exact (continuous_logNormals m l).measurable.sub (Real.measurable_log.comp h3)
  have mq : Measurable qd := by
    intro A hA
    have : qd ⁻¹' A = (fun z => (F (z, 0)).1) '' ((fun z => (F (z, L z)).2) ⁻¹' A) := by
      ext y
      constructor
      · intro hy
        obtain ⟨z, hz⟩ := hT.1.2.1.2 y
        refine ⟨z, ?_, hz⟩
        show (F (z, L z)).2 ∈ A
        rw [← hq z, hT.1.1 z (L z) 0]
        simp only at hz
        rw [hz]
        exact hy
      · rintro ⟨z, hz, rfl⟩
        show qd (F (z, 0)).1 ∈ A
        rw [hT.1.1 z 0 (L z), hq z]
        exact hz
    rw [this]
    exact hT.embedding.measurableSet_image.2 (mq2 hA)
  have cP : Continuous (logPrior : (ι → ℝ) → ℝ) := by
    have : (logPrior : (ι → ℝ) → ℝ) = logNormals 0 0 := funext logPrior_eq
    rw [this]; exact continuous_logNormals _ _
  set r : (ι → ℝ) → ℝ := fun z => qd z - logPrior z with hr
  have mr : Measurable r := mq.sub cP.measurable
  have mer : Measurable fun z => Real.exp (r z) := Real.measurable_exp.comp mr
  have hmap : (normals ι).map (fun e => (encode m l flows e).1) = volume.withDensity fun y => ENNReal.ofReal (Real.exp (qd y)) := by
    rw [← hden, ← draw_law, Measure.map_map _ (measurable_draw m l)]
    · rfl
    · have : (fun x => (F (x, L x)).1) = fun x => (F (x, 0)).1 := funext fun x => hT.1.1 _ _ _
      rw [this]
      exact hT.embedding.measurable
  have hlaw : Grad.law (normals ι) (fun z => Real.exp (r z)) = (normals ι).map (fun e => (encode m l flows e).1) := by
    rw [hmap, Grad.law, normals_density, ← withDensity_mul _ (cP.rexp.measurable.ennreal_ofReal) mer.ennreal_ofReal]
    congr 1
    funext w
    simp only [Pi.mul_apply, hr]
    rw [← ENNReal.ofReal_mul (Real.exp_pos _).le, ← Real.exp_add]
    congr 2
    ring
  have hprob : IsProbabilityMeasure ((normals ι).map (fun e => (encode m l flows e).1)) := Measure.isProbabilityMeasure_map mS.aemeasurable
  have hr1 : ∫⁻ w, ENNReal.ofReal (Real.exp (r w)) ∂(normals ι) = 1 := by
    have := hprob.measure_univ
    rwa [← hlaw, Grad.law, withDensity_apply _ MeasurableSet.univ, Measure.restrict_univ] at this
  have ir : Integrable (fun w => Real.exp (r w)) (normals ι) := by
    refine ⟨mer.aestronglyMeasurable, ?_⟩
    rw [hasFiniteIntegral_iff_ofReal (Filter.Eventually.of_forall fun w => (Real.exp_pos _).le), hr1]
    exact ENNReal.one_lt_top
  obtain ⟨C, hC⟩ := hf.bdd
  have il : Integrable (fun z => Real.exp (f z)) (normals ι) :=
    Integrable.of_bound hf.cont.rexp.aestronglyMeasurable (Real.exp C) (Filter.Eventually.of_forall fun w => by
      rw [Real.norm_eq_abs, abs_of_pos (Real.exp_pos _)]
      exact Real.exp_le_exp.2 (hC w))
  refine ⟨mS, r, mr, fun e => ?_, ⟨hf.cont.rexp.measurable, mer, fun w => (Real.exp_pos _).le, fun w => (Real.exp_pos _).le, il, ?_, ir, ?_,
    fun w h => absurd h (Real.exp_pos _).ne'⟩, hlaw, ?_⟩
  · rw [hr, eS]
    simp only [hq]
  · rw [Grad.evidence, integral_pos_iff_support_of_nonneg (fun w => (Real.exp_pos _).le) il]
    have : Function.support (fun z => Real.exp (f z)) = Set.univ := by
      ext w
      simp only [Function.mem_support, Set.mem_univ, iff_true]
      exact (Real.exp_pos _).ne'
    rw [this, measure_univ]
    exact one_pos
  · rw [integral_eq_lintegral_of_nonneg_ae (Filter.Eventually.of_forall fun w => (Real.exp_pos _).le) mer.aestronglyMeasurable, hr1]
    rfl
  · have mfr : Measurable fun z => f z - r z := hf.cont.measurable.sub mr
    rw [integrable_map_measure mfr.aestronglyMeasurable mS.aemeasurable]
    obtain ⟨c, k, hc, hk⟩ := hf.growth
    obtain ⟨c2, hc2, h2⟩ := logNormals_growth (0 : ι → ℝ) 0
    obtain ⟨c3, hc3, h3⟩ := logNormals_growth m l
    obtain ⟨a, ha, hb⟩ := hT.2
    have i1 : Integrable (fun e => f (F (draw m l e, 0)).1) (normals ι) := integrable_encoded hT m l hf.cont.measurable hc hk
    have i2 : Integrable (fun e => logPrior (F (draw m l e, 0)).1) (normals ι) :=
      integrable_encoded hT m l cP.measurable hc2 fun z => by rw [logPrior_eq]; exact h2 z
    have i3 : Integrable (fun e => L (draw m l e)) (normals ι) :=
      integrable_encoded tame_id m l (continuous_logNormals m l).measurable hc3 h3
    have i4 : Integrable (fun e => (F (draw m l e, L (draw m l e))).2 - L (draw m l e)) (normals ι) := by
      have mm : Measurable fun e => (F (draw m l e, L (draw m l e))).2 - L (draw m l e) :=
        (mq2.comp (measurable_draw m l)).sub ((continuous_logNormals m l).measurable.comp (measurable_draw m l))
      exact Integrable.of_bound mm.aestronglyMeasurable a (Filter.Eventually.of_forall fun e => (hb _ _).2)
    have i5 := (i1.sub (i4.add i3)).add i2
    refine i5.congr (Filter.Eventually.of_forall fun e => ?_)
    simp only [Pi.add_apply, Pi.sub_apply, Function.comp_apply, hr]
    rw [eS, hq, hT.1.1 _ (L (draw m l e)) 0]
    ring

/-! ## Objectives of one row -/

/-- The law of the encoded samples. -/
theorem samples_eq {f : (ι → ℝ) → ℝ} (hf : Lik f) (m l : ι → ℝ) (flows : List (List (Planar ι))) (hw : ∀ ps ∈ flows, ∀ p ∈ ps, p.w ≠ 0) (K : ℕ)
    {Φ : (Fin K → ι → ℝ) → ℝ} (hΦ : Measurable Φ) :
    ∫ z, Φ z ∂(Measure.pi fun _ : Fin K => (normals ι).map fun e => (encode m l flows e).1) =
      ∫ e, Φ (fun k => (encode m l flows (e k)).1) ∂(Measure.pi fun _ : Fin K => normals ι) := by
  obtain ⟨mS, _⟩ := latent hf m l flows hw
  have hp : ∀ _ : Fin K, IsProbabilityMeasure ((normals ι).map fun e => (encode m l flows e).1) := fun _ =>
    Measure.isProbabilityMeasure_map mS.aemeasurable
  have := Measure.pi_map_pi (μ := fun _ : Fin K => normals ι) (f := fun _ e => (encode m l flows e).1) fun _ => mS.aemeasurable
  rw [← this, integral_map]
  · exact (measurable_pi_lambda _ fun k => mS.comp (measurable_pi_apply k)).aemeasurable
  · exact hΦ.aestronglyMeasurable

variable {f : (ι → ℝ) → ℝ} (hf : Lik f) (m l : ι → ℝ) (flows : List (List (Planar ι))) (hw : ∀ ps ∈ flows, ∀ p ∈ ps, p.w ≠ 0)
include hf hw

theorem row_elbo (K : ℕ) :
    klDiv ((normals ι).map fun e => (encode m l flows e).1) (Grad.posterior (normals ι) fun z => Real.exp (f z)) ≠ ⊤ ∧
    Integrable (fun e : Fin (K + 1) → ι → ℝ => (Grad.elboObjective
      (fun k => .const (logPrior (encode m l flows (e k)).1 + f (encode m l flows (e k)).1))
      (fun k => .const (encode m l flows (e k)).2)).val) (Measure.pi fun _ : Fin (K + 1) => normals ι) ∧
    ∫ e, (Grad.elboObjective (fun k => .const (logPrior (encode m l flows (e k)).1 + f (encode m l flows (e k)).1))
      (fun k => .const (encode m l flows (e k)).2)).val ∂(Measure.pi fun _ : Fin (K + 1) => normals ι) =
    Real.log (Grad.evidence (normals ι) fun z => Real.exp (f z)) -
      (klDiv ((normals ι).map fun e => (encode m l flows e).1) (Grad.posterior (normals ι) fun z => Real.exp (f z))).toReal := by
  obtain ⟨mS, r, mr, hr, hM, hlaw, hi⟩ := latent hf m l flows hw
  have g := Grad.C39_elbo_gap (logp := fun z => .const (f z)) (logq := fun z => .const (r z)) hM
    (fun z => (Real.log_exp _).symm) (fun z => (Real.log_exp _).symm) (by simpa [hlaw] using hi) K
  rw [hlaw] at g
  have hE : ∀ e : Fin (K + 1) → ι → ℝ, (Grad.elboObjective
      (fun k => .const (logPrior (encode m l flows (e k)).1 + f (encode m l flows (e k)).1))
      (fun k => .const (encode m l flows (e k)).2)).val =
      (∑ k, (f (encode m l flows (e k)).1 - r (encode m l flows (e k)).1)) / (K + 1 : ℕ) := fun e => by
    rw [Grad.elboObjective_val]
    congr 1
    refine Finset.sum_congr rfl fun k _ => ?_
    rw [hr]
    show logPrior (encode m l flows (e k)).1 + f (encode m l flows (e k)).1 - (encode m l flows (e k)).2 = _
    ring
  have mfr : Measurable fun z => f z - r z := hf.cont.measurable.sub mr
  simp only [hE]
  refine ⟨g.1, ?_, ?_⟩
  · refine (integrable_finsetSum _ fun k _ => ?_).div_const _
    have h1 : Integrable (fun e => f (encode m l flows e).1 - r (encode m l flows e).1) (normals ι) :=
      (integrable_map_measure mfr.aestronglyMeasurable mS.aemeasurable).1 hi
    exact integrable_comp_eval (μ := fun _ : Fin (K + 1) => normals ι) (i := k) h1
  · rw [← g.2, Grad.samples, hlaw]
    simp only [Grad.elboObjective_val]
    refine (samples_eq hf m l flows hw (K + 1) (Φ := fun z => (∑ k, (f (z k) - r (z k))) / (K + 1 : ℕ)) ?_).symm
    exact (Finset.measurable_fun_sum _ fun k _ => mfr.comp (measurable_pi_apply k)).div_const _

/-- The importance weighted objective. -/
theorem row_iw :
    (∀ K : ℕ, ∫ e, (Grad.iwObjective (fun k => .const (logPrior (encode m l flows (e k)).1 + f (encode m l flows (e k)).1))
      (fun k => .const (encode m l flows (e k)).2)).val ∂(Measure.pi fun _ : Fin (K + 1) => normals ι) ≤
        Real.log (Grad.evidence (normals ι) fun z => Real.exp (f z))) ∧
    (Monotone fun K : ℕ => ∫ e, (Grad.iwObjective (fun k => .const (logPrior (encode m l flows (e k)).1 + f (encode m l flows (e k)).1))
      (fun k => .const (encode m l flows (e k)).2)).val ∂(Measure.pi fun _ : Fin (K + 1) => normals ι)) ∧
    Filter.Tendsto (fun K : ℕ => ∫ e, (Grad.iwObjective (fun k => .const (logPrior (encode m l flows (e k)).1 + f (encode m l flows (e k)).1))
      (fun k => .const (encode m l flows (e k)).2)).val ∂(Measure.pi fun _ : Fin (K + 1) => normals ι)) Filter.atTop
        (nhds (Real.log (Grad.evidence (normals ι) fun z => Real.exp (f z)))) := by
  obtain ⟨mS, r, mr, hr, hM, hlaw, hi⟩ := latent hf m l flows hw
  have mfr : Measurable fun z => f z - r z := hf.cont.measurable.sub mr
  have hE : ∀ (K : ℕ), ∫ e, (Grad.iwObjective
      (fun k => .const (logPrior (encode m l flows (e k)).1 + f (encode m l flows (e k)).1))
      (fun k => .const (encode m l flows (e k)).2)).val ∂(Measure.pi fun _ : Fin (K + 1) => normals ι) =
      ∫ z, (Grad.iwObjective (fun k => .const (f (z k))) (fun k => .const (r (z k)))).val
        ∂(Grad.samples (normals ι) (fun z => Real.exp (r z)) (K + 1)) := fun K => by
    rw [Grad.samples, hlaw]
    simp only [Grad.iwObjective_val]
    refine Eq.trans ?_ (samples_eq hf m l flows hw (K + 1) (Φ := fun z => Grad.LME fun k => f (z k) - r (z k)) ?_).symm
    · congr 1
      funext e
      congr 1
      funext k
      rw [hr]
      show logPrior (encode m l flows (e k)).1 + f (encode m l flows (e k)).1 - (encode m l flows (e k)).2 = _
      ring
    · unfold Grad.LME
      exact Real.measurable_log.comp ((Finset.measurable_fun_sum _ fun k _ =>
        Real.measurable_exp.comp (mfr.comp (measurable_pi_apply k))).div_const _)
  simp only [hE]
  have hi' : Integrable (fun z => Real.log (Real.exp (f z)) - Real.log (Real.exp (r z))) (Grad.law (normals ι) fun z => Real.exp (r z)) := by
    simpa [hlaw] using hi
  exact ⟨Grad.C40_le_evidence (logp := fun z => .const (f z)) (logq := fun z => .const (r z)) hM
    (fun z => (Real.log_exp _).symm) (fun z => (Real.log_exp _).symm) hi',
    Grad.C40_monotone (logp := fun z => .const (f z)) (logq := fun z => .const (r z)) hM
    (fun z => (Real.log_exp _).symm) (fun z => (Real.log_exp _).symm) hi',
    Grad.C40_tight (logp := fun z => .const (f z)) (logq := fun z => .const (r z)) hM (fun z h => absurd h (Real.exp_pos _).ne')
    (fun z => (Real.log_exp _).symm) (fun z => (Real.log_exp _).symm) hi'⟩

/-- The estimate of the likelihood is unbiased. -/
theorem row_is (K : ℕ) :
    ∫ e, Real.exp (Grad.isLoglikelihood (fun k => .const (logPrior (encode m l flows (e k)).1 + f (encode m l flows (e k)).1))
      (fun k => .const (encode m l flows (e k)).2)) ∂(Measure.pi fun _ : Fin (K + 1) => normals ι) =
      Grad.evidence (normals ι) fun z => Real.exp (f z) := by
  obtain ⟨mS, r, mr, hr, hM, hlaw, hi⟩ := latent hf m l flows hw
  have mfr : Measurable fun z => f z - r z := hf.cont.measurable.sub mr
  rw [← Grad.C71_unbiased_likelihood (logp := fun z => .const (f z)) (logq := fun z => .const (r z)) hM
    (fun z h => absurd h (Real.exp_pos _).ne') (fun z => (Real.log_exp _).symm) (fun z => (Real.log_exp _).symm) K, Grad.samples, hlaw]
  simp only [Grad.isLoglikelihood, Grad.iwObjective_val]
  refine Eq.trans ?_ (samples_eq hf m l flows hw (K + 1) (Φ := fun z => Real.exp (Grad.LME fun k => f (z k) - r (z k))) ?_).symm
  · congr 1
    funext e
    congr 2
    funext k
    rw [hr]
    show logPrior (encode m l flows (e k)).1 + f (encode m l flows (e k)).1 - (encode m l flows (e k)).2 = _
    ring
  · unfold Grad.LME
    exact Real.measurable_exp.comp (Real.measurable_log.comp ((Finset.measurable_fun_sum _ fun k _ =>
      Real.measurable_exp.comp (mfr.comp (measurable_pi_apply k))).div_const _))

/-- The importance weighted bound is integrable. -/
theorem row_iw_int (K : ℕ) :
    Integrable (fun e : Fin (K + 1) → ι → ℝ => (Grad.iwObjective
      (fun k => .const (logPrior (encode m l flows (e k)).1 + f (encode m l flows (e k)).1))
      (fun k => .const (encode m l flows (e k)).2)).val) (Measure.pi fun _ : Fin (K + 1) => normals ι) := by
  obtain ⟨mS, r, mr, hr, hM, hlaw, hi⟩ := latent hf m l flows hw
  have hi' : Integrable (fun z => Real.log (Real.exp (f z)) - Real.log (Real.exp (r z))) (Grad.law (normals ι) fun z => Real.exp (r z)) := by
    simpa [hlaw] using hi
  have h1 := Grad.iw_integrable hM hi' K
  have hp : ∀ _ : Fin (K + 1), IsProbabilityMeasure ((normals ι).map fun e => (encode m l flows e).1) := fun _ =>
    Measure.isProbabilityMeasure_map mS.aemeasurable
  have hm := Measure.pi_map_pi (μ := fun _ : Fin (K + 1) => normals ι) (f := fun _ e => (encode m l flows e).1) fun _ => mS.aemeasurable
  have mm : Measurable fun (e : Fin (K + 1) → ι → ℝ) k => (encode m l flows (e k)).1 :=
    measurable_pi_lambda _ fun k => mS.comp (measurable_pi_apply k)
  rw [Grad.samples, hlaw, ← hm, integrable_map_measure (Grad.iw_measurable hM K).aestronglyMeasurable mm.aemeasurable] at h1
  refine h1.congr (Filter.Eventually.of_forall fun e => ?_)
  simp only [Function.comp_apply, Grad.iwObjective_val, Real.log_exp]
  congr 1
  funext k
  rw [hr]
  show _ = logPrior (encode m l flows (e k)).1 + f (encode m l flows (e k)).1 - (encode m l flows (e k)).2
  ring

/-- The estimate of the log likelihood converges. -/
theorem row_is_limit {Ω : Type} [MeasurableSpace Ω] {P : Measure Ω} (ε : ℕ → Ω → ι → ℝ) (hε : ∀ i, Measurable (ε i))
    (hind : Pairwise fun i j => IndepFun (ε i) (ε j) P) (hlawε : ∀ i, P.map (ε i) = normals ι) :
    ∀ᵐ ω ∂P, Filter.Tendsto (fun K : ℕ => Grad.isLoglikelihood
      (fun k : Fin (K + 1) => .const (logPrior (encode m l flows (ε k ω)).1 + f (encode m l flows (ε k ω)).1))
      (fun k => .const (encode m l flows (ε k ω)).2)) Filter.atTop (nhds (Real.log (Grad.evidence (normals ι) fun z => Real.exp (f z)))) := by
  obtain ⟨mS, r, mr, hr, hM, hlaw, hi⟩ := latent hf m l flows hw
  have h := Grad.C71_consistent (logp := fun z => .const (f z)) (logq := fun z => .const (r z)) (P := P) hM
    (fun z h => absurd h (Real.exp_pos _).ne') (fun z => (Real.log_exp _).symm) (fun z => (Real.log_exp _).symm)
    (fun i ω => (encode m l flows (ε i ω)).1) (fun i => mS.comp (hε i)) (fun i j hij => (hind hij).comp mS mS) (fun i => by
      rw [hlaw, ← hlawε i, Measure.map_map mS (hε i)]
      rfl)
  filter_upwards [h] with ω hω
  refine hω.congr fun K => ?_
  simp only [Grad.isLoglikelihood, Grad.iwObjective_val]
  congr 1
  funext k
  rw [hr]
  show f (encode m l flows (ε k ω)).1 - ((encode m l flows (ε k ω)).2 - logPrior (encode m l flows (ε k ω)).1) = logPrior (encode m l flows (ε k ω)).1 + f (encode m l flows (ε k ω)).1 - (encode m l flows (ε k ω)).2
  ring

end

end ZhuSuan.Vae
