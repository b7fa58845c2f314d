import Verif.Lemmas.Svgp
import Verif.Model.Svgp
import Verif.Props.Elbo
import Verif.Props.GaussianProcess
import Verif.Props.Minibatch
import Verif.Props.Normal
import Verif.Spec.Svgp

/-!
# C96  The evidence lower bound of the sparse variational Gaussian process
-/

set_option autoImplicit false

open MeasureTheory ProbabilityTheory InformationTheory Matrix

namespace ZhuSuan.Svgp

open Sgmcmc Minibatch Num GP

section
variable {κ : Type} [Fintype κ] {nz n K : ℕ} {P : Params κ nz} {chol : Fin nz → Fin nz → ℝ}

theorem gram_eq {ι : Type} [Fintype ι] (scale : κ → ℝ) (p : ι → κ → ℝ) : gram scale p = rbf scale p p := by
  ext i j
  simp only [gram, kernel, rbf, of_apply]
  congr 1
  ring

/-- The weights of the conditional mean at a point. -/
noncomputable def coef (P : Params κ nz) (p : κ → ℝ) (j : Fin nz) : ℝ :=
  ∑ l, (gram (kScale P.kRaw) P.zPos)⁻¹ j l * kernel (kScale P.kRaw) (P.zPos l) p

/-- The conditional standard deviation at a point. -/
noncomputable def sd (P : Params κ nz) (p : κ → ℝ) : ℝ :=
  Real.sqrt (1 - ∑ j, coef P p j * kernel (kScale P.kRaw) (P.zPos j) p)

theorem kernel_symm (ell : κ → ℝ) (a b : κ → ℝ) : kernel ell a b = kernel ell b a := by
  simp only [kernel]
  congr 2
  exact Finset.sum_congr rfl fun c _ => by rw [← neg_sub, neg_sq]

theorem kernel_self (ell : κ → ℝ) (a : κ → ℝ) : kernel ell a a = 1 := by simp [kernel]

theorem rbf_kernel {ι ι' : Type} (ell : κ → ℝ) (x : ι → κ → ℝ) (y : ι' → κ → ℝ) (i : ι) (j : ι') : rbf ell x y i j = kernel ell (x i) (y j) := by
  simp only [kernel, rbf, of_apply]
  congr 1
  ring

theorem cond_var {l : ℕ} (x : Fin l → κ → ℝ) (i : Fin l) :
    (rbf (kScale P.kRaw) x x - rbf (kScale P.kRaw) x P.zPos * (rbf (kScale P.kRaw) P.zPos P.zPos)⁻¹ * rbf (kScale P.kRaw) P.zPos x) i i =
      1 - ∑ j, coef P (x i) j * kernel (kScale P.kRaw) (P.zPos j) (x i) := by
  rw [Matrix.sub_apply, rbf_kernel, kernel_self, Matrix.mul_assoc, Matrix.mul_apply]
  congr 1
  refine Finset.sum_congr rfl fun j _ => ?_
  rw [rbf_kernel, kernel_symm, mul_comm, Matrix.mul_apply, coef, gram_eq]
  simp only [rbf_kernel]

theorem sampleFx_eq (hc : Cholesky chol) (hcc : of chol * (of chol)ᵀ = gram (kScale P.kRaw) P.zPos) {l : ℕ} (fz : Fin K → Fin nz → ℝ)
    (x : Fin l → κ → ℝ) (e : Fin K → Fin l → ℝ) :
    sampleFx P chol fz x e = some fun k i => ∑ j, fz k j * coef P (x i) j + e k i * sd P (x i) := by
  rw [gram_eq] at hcc
  obtain ⟨_, ⟨std, h2, h3⟩, _⟩ := C68_conditional P.kRaw P.zPos (of fz) x chol hc hcc
  rw [sampleFx, h2]
  simp only [Option.some.injEq]
  funext k i
  have e1 : std i = sd P (x i) := by
    rw [sd, ← cond_var, ← (h3 i).2, Real.sqrt_sq (h3 i).1]
  have e2 : (of fz * (rbf (kScale P.kRaw) P.zPos P.zPos)⁻¹ * rbf (kScale P.kRaw) P.zPos x) k i = ∑ j, fz k j * coef P (x i) j := by
    rw [Matrix.mul_assoc, Matrix.mul_apply]
    refine Finset.sum_congr rfl fun j _ => ?_
    rw [Matrix.mul_apply, coef, gram_eq]
    simp only [rbf_kernel, of_apply]
  rw [e1, e2, Uni.Normal.sample, add_comm]

theorem sd_sq (hc : Cholesky chol) (hcc : of chol * (of chol)ᵀ = gram (kScale P.kRaw) P.zPos) (p : κ → ℝ) :
    sd P p ^ 2 = 1 - ∑ j, coef P p j * kernel (kScale P.kRaw) (P.zPos j) p := by
  have h := C68_conditional P.kRaw P.zPos (0 : Matrix (Fin 0) (Fin nz) ℝ) (fun _ : Fin 1 => p) chol hc (by rw [hcc, gram_eq])
  have h2 := h.2.2.diag_nonneg (i := (0 : Fin 1))
  have h3 := cond_var (P := P) (fun _ : Fin 1 => p) 0
  rw [sd, Real.sq_sqrt (by rw [← h3]; exact h2)]

theorem softplus_pos (x : ℝ) : 0 < Uni.softplus x := Real.log_pos (by linarith [Real.exp_pos x])

omit [Fintype κ] in
theorem tril_cholesky (P : Params κ nz) : Cholesky P.zCovTril := by
  refine ⟨fun i j h => ?_, fun i => ?_⟩
  · rw [Params.zCovTril, if_neg h.ne, if_neg (not_le.2 h)]
  · rw [Params.zCovTril, if_pos rfl]
    exact softplus_pos _

/-- The log density ratio of the values at `z`. -/
noncomputable def ratio (P : Params κ nz) (chol : Fin nz → Fin nz → ℝ) (w : Fin nz → ℝ) : ℝ :=
  mvnLogProb flags (fun _ => 0) chol w - mvnLogProb flags P.zMean P.zCovTril w

/-- The log likelihood of a row for given noise. -/
noncomputable def rowLik (P : Params κ nz) (d : (κ → ℝ) × ℝ) (v : (Fin nz → ℝ) × ℝ) : ℝ :=
  Uni.Normal.logProb (∑ j, v.1 j * coef P d.1 j + v.2 * sd P d.1) (Real.log P.noiseStd) d.2

theorem lowerBound_eq (hc : Cholesky chol) (hcc : of chol * (of chol)ᵀ = gram (kScale P.kRaw) P.zPos) (fed : List ((κ → ℝ) × ℝ))
    (e : Fin K → (Fin nz → ℝ) × (Fin fed.length → ℝ)) :
    lowerBound P chol n fed e = some ((∑ k, (ratio P chol (mvnSample flags P.zMean P.zCovTril (e k).1) +
      (∑ i, rowLik P fed[i] (mvnSample flags P.zMean P.zCovTril (e k).1, (e k).2 i)) / fed.length * n)) / K) := by
  simp only [lowerBound, sampleFx_eq hc hcc, Option.map_some, Option.some.injEq, Grad.elboObjective_val, Grad.Dual.const, logJoint]
  congr 1
  refine Finset.sum_congr rfl fun k _ => ?_
  simp only [ratio, rowLik, sampleFz, add_zero]
  ring

/-! ## Integrability -/

omit [Fintype κ] in
theorem normal_sample (P : Params κ nz) : Normal (Measure.pi fun _ : Fin nz => gaussianReal 0 1) (mvnSample flags P.zMean P.zCovTril) P.zMean
    (of P.zCovTril * (of P.zCovTril)ᵀ) := by
  have h := (normal_std (ι := Fin nz)).image (of P.zCovTril) P.zMean
  rw [mulVec_zero, add_zero, Matrix.mul_one] at h
  have e : (fun z => P.zMean + (of P.zCovTril).mulVec z) = mvnSample flags P.zMean P.zCovTril := by
    funext z
    rw [mvnSample_eq, add_comm]
  rwa [e] at h

omit [Fintype κ] in
theorem measurable_sample (P : Params κ nz) : Measurable (mvnSample flags P.zMean P.zCovTril) := by
  have e : mvnSample flags P.zMean P.zCovTril = fun z => (of P.zCovTril).mulVec z + P.zMean := funext (mvnSample_eq flags _ _)
  rw [e]
  exact ((of P.zCovTril).mulVecLin.continuous_of_finiteDimensional.measurable).add_const _

omit [Fintype κ] in
theorem integrable_logProb {L : Fin nz → Fin nz → ℝ} (hL : Cholesky L) (m : Fin nz → ℝ) : Integrable
    (fun z => mvnLogProb flags m L (mvnSample flags P.zMean P.zCovTril z)) (Measure.pi fun _ : Fin nz => gaussianReal 0 1) := by
  simp only [mvnLogProb_eq flags m L hL]
  have h := (normal_sample P).image ((of L)⁻¹) (-((of L)⁻¹.mulVec m))
  have e : ∀ z, -((of L)⁻¹.mulVec m) + (of L)⁻¹.mulVec (mvnSample flags P.zMean P.zCovTril z) =
      (of L)⁻¹.mulVec (mvnSample flags P.zMean P.zCovTril z - m) := fun z => by rw [mulVec_sub]; ring
  simp only [e] at h
  exact (integrable_const _).sub ((integrable_finsetSum _ fun i _ => (h.lp i).integrable_sq).const_mul _)

omit [Fintype κ] in
theorem integrable_ratio (hc : Cholesky chol) : Integrable
    (fun z => ratio P chol (mvnSample flags P.zMean P.zCovTril z)) (Measure.pi fun _ : Fin nz => gaussianReal 0 1) :=
  (integrable_logProb hc _).sub (integrable_logProb (tril_cholesky P) _)

theorem integrable_rowLik (d : (κ → ℝ) × ℝ) : Integrable (fun u : (Fin nz → ℝ) × ℝ => rowLik P d (mvnSample flags P.zMean P.zCovTril u.1, u.2))
    ((Measure.pi fun _ : Fin nz => gaussianReal 0 1).prod (gaussianReal 0 1)) := by
  have h1 : ∀ j, MemLp (fun u : (Fin nz → ℝ) × ℝ => mvnSample flags P.zMean P.zCovTril u.1 j) 2
      ((Measure.pi fun _ : Fin nz => gaussianReal 0 1).prod (gaussianReal 0 1)) := fun j =>
    ((normal_sample P).lp j).comp_measurePreserving measurePreserving_fst
  have h2 : MemLp (fun u : (Fin nz → ℝ) × ℝ => u.2) 2 ((Measure.pi fun _ : Fin nz => gaussianReal 0 1).prod (gaussianReal 0 1)) :=
    (memLp_id_gaussianReal' (μ := 0) (v := 1) 2 (by simp)).comp_measurePreserving measurePreserving_snd
  have h3 : MemLp (fun u : (Fin nz → ℝ) × ℝ => d.2 - (∑ j, mvnSample flags P.zMean P.zCovTril u.1 j * coef P d.1 j + u.2 * sd P d.1)) 2
      ((Measure.pi fun _ : Fin nz => gaussianReal 0 1).prod (gaussianReal 0 1)) :=
    (memLp_const d.2).sub ((memLp_finsetSum _ fun j _ => (h1 j).mul_const _).add (h2.mul_const _))
  simp only [rowLik, Uni.Normal.logProb]
  exact (integrable_const _).sub (h3.integrable_sq.const_mul _)

/-- The expected bound of given rows, over the noise. -/
theorem bound_mean (hc : Cholesky chol) (hcc : of chol * (of chol)ᵀ = gram (kScale P.kRaw) P.zPos) (fed : List ((κ → ℝ) × ℝ)) :
    ∫ e, (lowerBound P chol n fed e).getD 0 ∂(Measure.pi fun _ : Fin (K + 1) =>
        (Measure.pi fun _ : Fin nz => gaussianReal 0 1).prod (Measure.pi fun _ : Fin fed.length => gaussianReal 0 1)) =
      Minibatch.logJoint n (fun _ => ∫ z, ratio P chol (mvnSample flags P.zMean P.zCovTril z) ∂(Measure.pi fun _ : Fin nz => gaussianReal 0 1))
        (fun d _ => ∫ u : (Fin nz → ℝ) × ℝ, rowLik P d (mvnSample flags P.zMean P.zCovTril u.1, u.2)
          ∂((Measure.pi fun _ : Fin nz => gaussianReal 0 1).prod (gaussianReal 0 1))) fed () := by
  set G := Measure.pi fun _ : Fin nz => gaussianReal 0 1 with hG
  set N := G.prod (Measure.pi fun _ : Fin fed.length => gaussianReal 0 1) with hN
  set h : (Fin nz → ℝ) × (Fin fed.length → ℝ) → ℝ := fun u => ratio P chol (mvnSample flags P.zMean P.zCovTril u.1) +
      (∑ i, rowLik P fed[i] (mvnSample flags P.zMean P.zCovTril u.1, u.2 i)) / fed.length * n with hh
  have hmp : ∀ i : Fin fed.length, MeasurePreserving (fun u : (Fin nz → ℝ) × (Fin fed.length → ℝ) => (u.1, u.2 i)) N (G.prod (gaussianReal 0 1)) :=
    fun i => (MeasurePreserving.id G).prod (measurePreserving_eval (fun _ : Fin fed.length => gaussianReal 0 1) i)
  have i1 : Integrable (fun u : (Fin nz → ℝ) × (Fin fed.length → ℝ) => ratio P chol (mvnSample flags P.zMean P.zCovTril u.1)) N :=
    (integrable_ratio (P := P) hc).comp_fst _
  have i2 : ∀ i : Fin fed.length, Integrable (fun u : (Fin nz → ℝ) × (Fin fed.length → ℝ) =>
      rowLik P fed[i] (mvnSample flags P.zMean P.zCovTril u.1, u.2 i)) N := fun i =>
    (hmp i).integrable_comp_of_integrable (integrable_rowLik (P := P) fed[i])
  have i3 : Integrable (fun u : (Fin nz → ℝ) × (Fin fed.length → ℝ) =>
      (∑ i, rowLik P fed[i] (mvnSample flags P.zMean P.zCovTril u.1, u.2 i)) / fed.length * n) N :=
    ((integrable_finsetSum _ fun i _ => i2 i).div_const _).mul_const _
  have ih : Integrable h N := i1.add i3
  have e1 : ∀ e : Fin (K + 1) → (Fin nz → ℝ) × (Fin fed.length → ℝ), (lowerBound P chol n fed e).getD 0 = (∑ k, h (e k)) / (K + 1 : ℕ) := by
    intro e
    rw [lowerBound_eq hc hcc, Option.getD_some]
  simp only [e1]
  rw [integral_div, integral_finsetSum _ fun k _ => integrable_comp_eval (μ := fun _ : Fin (K + 1) => N) (i := k) ih]
  have e2 : ∀ k, ∫ e : Fin (K + 1) → (Fin nz → ℝ) × (Fin fed.length → ℝ), h (e k) ∂(Measure.pi fun _ => N) = ∫ u, h u ∂N := fun k =>
    integral_comp_eval (μ := fun _ : Fin (K + 1) => N) (i := k) ih.1
  simp only [e2, Finset.sum_const, Finset.card_univ, Fintype.card_fin, nsmul_eq_mul]
  have hK : ((K + 1 : ℕ) : ℝ) ≠ 0 := by positivity
  rw [mul_div_cancel_left₀ _ hK, hh, integral_add i1 i3, integral_mul_const, integral_div, integral_finsetSum _ fun i _ => i2 i]
  have e3 : ∫ u : (Fin nz → ℝ) × (Fin fed.length → ℝ), ratio P chol (mvnSample flags P.zMean P.zCovTril u.1) ∂N =
      ∫ z, ratio P chol (mvnSample flags P.zMean P.zCovTril z) ∂G := by
    have := integral_fun_fst (μ := G) (ν := Measure.pi fun _ : Fin fed.length => gaussianReal 0 1)
      (fun z => ratio P chol (mvnSample flags P.zMean P.zCovTril z))
    simpa using this
  have e4 : ∀ i : Fin fed.length, ∫ u : (Fin nz → ℝ) × (Fin fed.length → ℝ), rowLik P fed[i] (mvnSample flags P.zMean P.zCovTril u.1, u.2 i) ∂N =
      ∫ u : (Fin nz → ℝ) × ℝ, rowLik P fed[i] (mvnSample flags P.zMean P.zCovTril u.1, u.2) ∂(G.prod (gaussianReal 0 1)) := by
    intro i
    rw [← (hmp i).map_eq, integral_map (hmp i).measurable.aemeasurable]
    rw [(hmp i).map_eq]
    exact (integrable_rowLik (P := P) fed[i]).1
  rw [e3, Finset.sum_congr rfl fun i _ => e4 i, Minibatch.logJoint, mean, List.length_map]
  congr 3
  rw [← List.sum_ofFn]
  congr 1
  refine List.ext_getElem (by simp) fun i h1 h2 => ?_
  simp

/-! ## The variational distribution -/

theorem pdf_prior (hc : Cholesky chol) (hcc : of chol * (of chol)ᵀ = gram (kScale P.kRaw) P.zPos) (w : Fin nz → ℝ) :
    normalPdf 0 (gram (kScale P.kRaw) P.zPos) w = Real.exp (mvnLogProb flags (fun _ => 0) chol w) := by
  rw [C30_density flags _ _ hc, hcc]
  rfl

omit [Fintype κ] in
theorem pdf_var (P : Params κ nz) (w : Fin nz → ℝ) : normalPdf P.zMean (of P.zCovTril * (of P.zCovTril)ᵀ) w =
    Real.exp (mvnLogProb flags P.zMean P.zCovTril w) := by
  rw [C30_density flags _ _ (tril_cholesky P)]
  rfl

theorem pdf_ratio (hc : Cholesky chol) (hcc : of chol * (of chol)ᵀ = gram (kScale P.kRaw) P.zPos) (w : Fin nz → ℝ) :
    normalPdf P.zMean (of P.zCovTril * (of P.zCovTril)ᵀ) w / normalPdf 0 (gram (kScale P.kRaw) P.zPos) w = Real.exp (-ratio P chol w) := by
  rw [pdf_prior hc hcc, pdf_var, ← Real.exp_sub, ratio, neg_sub]

theorem measurable_logProb {L : Fin nz → Fin nz → ℝ} (hL : Cholesky L) (m : Fin nz → ℝ) : Measurable (mvnLogProb flags m L) := by
  have e : mvnLogProb flags m L = fun x => -(nz : ℝ) / 2 * Real.log (2 * Real.pi) - Real.log |(of L).det| -
      0.5 * ∑ i, ((of L)⁻¹.mulVec (x - m)) i ^ 2 := funext fun x => mvnLogProb_eq flags m L hL x
  have h : Measurable fun x : Fin nz → ℝ => (of L)⁻¹.mulVec (x - m) :=
    ((of L)⁻¹.mulVecLin.continuous_of_finiteDimensional.measurable).comp (measurable_id.sub_const m)
  rw [e]
  fun_prop

omit [Fintype κ] in
theorem measurable_ratio (hc : Cholesky chol) : Measurable (ratio P chol) :=
  (measurable_logProb hc _).sub (measurable_logProb (tril_cholesky P) _)

omit [Fintype κ] in
/-- The law of the samples at `z` is the prior at `z`, reweighted. -/
theorem reweight (hc : Cholesky chol) :
    ((Measure.pi fun _ : Fin nz => gaussianReal 0 1).map fun e => (of chol).mulVec e).withDensity
      (fun w => ENNReal.ofReal (Real.exp (-ratio P chol w))) =
    (Measure.pi fun _ : Fin nz => gaussianReal 0 1).map (mvnSample flags P.zMean P.zCovTril) := by
  have e : (fun e => (of chol).mulVec e) = mvnSample flags (fun _ => 0) chol := by
    funext z
    rw [mvnSample_eq]
    exact (add_zero _).symm
  have m1 : Measurable fun w => ENNReal.ofReal (Real.exp (mvnLogProb flags (fun _ => 0) chol w)) := (measurable_logProb hc _).exp.ennreal_ofReal
  have m2 : Measurable fun w => ENNReal.ofReal (Real.exp (-ratio P chol w)) := (measurable_ratio hc).neg.exp.ennreal_ofReal
  rw [e, C30_sampler flags _ _ hc, C30_sampler flags _ _ (tril_cholesky P), ← withDensity_mul _ m1 m2]
  congr 1
  funext w
  simp only [Pi.mul_apply]
  rw [← ENNReal.ofReal_mul (Real.exp_pos _).le, ← Real.exp_add, ratio]
  congr 2
  ring

theorem var_eq (hc : Cholesky chol) (hcc : of chol * (of chol)ᵀ = gram (kScale P.kRaw) P.zPos) (prior : Measure (Fin nz ⊕ Fin n → ℝ)) :
    variational (kScale P.kRaw) P.zPos prior P.zMean (of P.zCovTril * (of P.zCovTril)ᵀ) =
      prior.withDensity fun f => ENNReal.ofReal (Real.exp (-ratio P chol fun j => f (.inl j))) := by
  unfold variational
  simp only [pdf_ratio hc hcc]

/-- The variational distribution at `z`. -/
theorem var_at_z (hc : Cholesky chol) (hcc : of chol * (of chol)ᵀ = gram (kScale P.kRaw) P.zPos) {x : Fin n → κ → ℝ}
    {prior : Measure (Fin nz ⊕ Fin n → ℝ)} (hp : IsGP (kScale P.kRaw) (Sum.elim P.zPos x) prior) :
    (variational (kScale P.kRaw) P.zPos prior P.zMean (of P.zCovTril * (of P.zCovTril)ᵀ)).map (fun f j => f (.inl j)) =
      (Measure.pi fun _ : Fin nz => gaussianReal 0 1).map (mvnSample flags P.zMean P.zCovTril) := by
  rw [var_eq hc hcc, map_withDensity_comp (φ := fun (f : Fin nz ⊕ Fin n → ℝ) j => f (.inl j)) prior (by fun_prop)
    (g := fun w => ENNReal.ofReal (Real.exp (-ratio P chol w))) (measurable_ratio hc).neg.exp.ennreal_ofReal, ← reweight hc]
  congr 1
  have h1 := hp.select (fun j : Fin nz => (Sum.inl j : Fin nz ⊕ Fin n))
  have h2 := (normal_std (ι := Fin nz)).image (of chol) 0
  rw [mulVec_zero, add_zero, Matrix.mul_one, hcc] at h2
  have e : (gram (kScale P.kRaw) (Sum.elim P.zPos x)).submatrix Sum.inl Sum.inl = gram (kScale P.kRaw) P.zPos := rfl
  rw [e] at h1
  rw [h1.unique h2]
  congr 1
  funext e
  exact zero_add _

/-- The variational distribution at `z` and at one row. -/
theorem var_at_row (hc : Cholesky chol) (hcc : of chol * (of chol)ᵀ = gram (kScale P.kRaw) P.zPos) {x : Fin n → κ → ℝ}
    {prior : Measure (Fin nz ⊕ Fin n → ℝ)} (hp : IsGP (kScale P.kRaw) (Sum.elim P.zPos x) prior) (i : Fin n) :
    (variational (kScale P.kRaw) P.zPos prior P.zMean (of P.zCovTril * (of P.zCovTril)ᵀ)).map
        (fun f => ((fun j => f (.inl j) : Fin nz → ℝ), f (.inr i))) =
      (((Measure.pi fun _ : Fin nz => gaussianReal 0 1).map (mvnSample flags P.zMean P.zCovTril)).prod (gaussianReal 0 1)).map
        fun p => (p.1, ∑ j, p.1 j * coef P (x i) j + p.2 * sd P (x i)) := by
  have hdet : IsUnit (gram (kScale P.kRaw) P.zPos).det := by
    rw [← hcc, det_mul, det_transpose, isUnit_iff_ne_zero]
    exact mul_ne_zero hc.det_pos.ne' hc.det_pos.ne'
  have mr : Measurable fun w : Fin nz → ℝ => ENNReal.ofReal (Real.exp (-ratio P chol w)) := (measurable_ratio hc).neg.exp.ennreal_ofReal
  have mr1 : Measurable fun v : (Fin nz → ℝ) × ℝ => ENNReal.ofReal (Real.exp (-ratio P chol v.1)) := mr.comp measurable_fst
  rw [var_eq hc hcc, map_withDensity_comp (φ := fun (f : Fin nz ⊕ Fin n → ℝ) => ((fun j => f (.inl j) : Fin nz → ℝ), f (.inr i))) prior
    (by fun_prop) (g := fun v => ENNReal.ofReal (Real.exp (-ratio P chol v.1))) mr1]
  have h := two_steps hp (by ext a b; exact kernel_symm _ _ _) (of chol) (by rw [hcc]; rfl) i (coef P (x i)) (fun j => by
      have e : ∀ k, gram (kScale P.kRaw) (Sum.elim P.zPos x) (.inl j) (.inl k) = gram (kScale P.kRaw) P.zPos j k := fun k => rfl
      simp only [e]
      have e2 : ∑ k, gram (kScale P.kRaw) P.zPos j k * coef P (x i) k =
          ((gram (kScale P.kRaw) P.zPos).mulVec ((gram (kScale P.kRaw) P.zPos)⁻¹.mulVec fun l => kernel (kScale P.kRaw) (P.zPos l) (x i))) j := rfl
      rw [e2, mulVec_mulVec, mul_nonsing_inv _ hdet, one_mulVec]
      rfl) (sd P (x i)) (by
      rw [sd_sq hc hcc]
      congr 1
      exact (kernel_self _ _).symm)
  rw [h]
  have mT : Measurable fun p : (Fin nz → ℝ) × ℝ => ((p.1, ∑ j, p.1 j * coef P (x i) j + p.2 * sd P (x i)) : (Fin nz → ℝ) × ℝ) := by fun_prop
  have mL : Measurable fun e : Fin nz → ℝ => (of chol).mulVec e := (of chol).mulVecLin.continuous_of_finiteDimensional.measurable
  have hPr : IsProbabilityMeasure ((Measure.pi fun _ : Fin nz => gaussianReal 0 1).map fun e => (of chol).mulVec e) :=
    Measure.isProbabilityMeasure_map mL.aemeasurable
  rw [← map_withDensity_comp _ mT mr1, ← reweight hc, prod_withDensity_left mr]

theorem exists_gp {ι : Type} [Fintype ι] (raw : κ → ℝ) (p : ι → κ → ℝ) :
    ∃ prior : Measure (ι → ℝ), IsGP (fun c => Real.log (1 + Real.exp (raw c))) p prior := by
  classical
  have hpsd : (gram (kScale raw) p).PosSemidef := by
    rw [gram_eq]
    exact rbf_posSemidef _ (kScale_pos raw) p
  obtain ⟨B, hB⟩ := exists_factor hpsd
  have h := (normal_std (ι := ι)).image B 0
  rw [mulVec_zero, add_zero, Matrix.mul_one, hB] at h
  exact ⟨_, h.id_map⟩

/-! ## The theorems -/

omit [Fintype κ] in
theorem likelihood_exp (P : Params κ nz) (y : Fin n → ℝ) (f : Fin nz ⊕ Fin n → ℝ) :
    likelihood (Real.toNNReal P.noiseStd) y f = Real.exp (∑ i, Uni.Normal.logProb (f (.inr i)) (Real.log P.noiseStd) (y i)) := by
  rw [likelihood, Real.exp_sum]
  refine Finset.prod_congr rfl fun i _ => ?_
  have h := Uni.C18_density (f (.inr i)) (.std P.noiseStd) (softplus_pos _) (y i)
  refine Eq.trans ?_ h.symm
  congr 1
  ext
  simp [Uni.sq, Uni.StdArg.getStd, Real.coe_toNNReal _ (softplus_pos P.noiseRaw).le, Params.noiseStd]

omit [Fintype κ] in
theorem tril_eq (P : Params κ nz) : of P.zCovTril = tril P.zCovRaw := by
  ext i j
  simp only [of_apply, tril, Params.zCovTril]
  rcases lt_trichotomy j i with h | h | h
  · rw [if_neg h.ne', if_pos h.le, if_pos h]
  · subst h
    simp [Uni.softplus]
  · rw [if_neg h.ne, if_neg (not_le.2 h), if_neg (not_lt.2 h.le), if_neg h.ne']

/-- **C96.** The expected lower bound of a batch, over the shuffle and the noise of the particles, is the logarithm of the marginal
likelihood of all the labels minus the divergence of the variational distribution (of the values of the process at the inducing inputs and
at all the training inputs) from the posterior distribution of the same values given all the labels.  For any data, batch size, iteration,
number of particles and inducing inputs, and any values of the trainable variables for which the kernel matrix of the inducing inputs has a
Cholesky factor. -/
theorem C96_elbo (P : Params κ nz) (chol : Fin nz → Fin nz → ℝ) (s : Arrays n (κ → ℝ) ℝ) (perms : List (Equiv.Perm (Fin n))) (b t : ℕ)
    (hb : 0 < b) (ht : t < itersUp n b) (prior : Measure (Fin nz ⊕ Fin n → ℝ)) :
    let ell := fun c => Real.log (1 + Real.exp (P.kRaw c))
    let std := Real.toNNReal (Real.log (1 + Real.exp P.noiseRaw))
    let q := variational ell P.zPos prior P.zMean (tril P.zCovRaw * (tril P.zCovRaw)ᵀ)
    let lik := likelihood std s.y
    Cholesky chol → of chol * (of chol)ᵀ = gram ell P.zPos → IsGP ell (Sum.elim P.zPos s.x) prior →
    (∀ fed (e : Fin (K + 1) → _), (lowerBound P chol n fed e).isSome) ∧
    klDiv q (Grad.posterior prior lik) ≠ ⊤ ∧
    ∫ σ, ∫ e, (lowerBound P chol n (((s.epochs perms).permute σ).feed b t) e).getD 0 ∂(noise (K + 1) nz _) ∂uniform n =
      Real.log (Grad.evidence prior lik) - (klDiv q (Grad.posterior prior lik)).toReal := by
  intro ell std q lik hc hcc hp
  have hprior : IsProbabilityMeasure prior := hp.prob
  have hcc' : of chol * (of chol)ᵀ = gram (kScale P.kRaw) P.zPos := hcc
  have hp' : IsGP (kScale P.kRaw) (Sum.elim P.zPos s.x) prior := hp
  refine ⟨fun fed e => by rw [lowerBound_eq hc hcc']; rfl, ?_⟩
  have hq : q = variational (kScale P.kRaw) P.zPos prior P.zMean (of P.zCovTril * (of P.zCovTril)ᵀ) := by rw [tril_eq]; rfl
  set d : (Fin nz ⊕ Fin n → ℝ) → ℝ := fun f => Real.exp (-ratio P chol fun j => f (.inl j)) with hd
  have hlaw : q = Grad.law prior d := by rw [hq, var_eq hc hcc']; rfl
  have hlik : ∀ f, lik f = Real.exp (∑ i, Uni.Normal.logProb (f (.inr i)) (Real.log P.noiseStd) (s.y i)) := likelihood_exp P s.y
  have mz : Measurable fun (f : Fin nz ⊕ Fin n → ℝ) j => f (.inl j) := by fun_prop
  have md : Measurable d := ((measurable_ratio hc).comp mz).neg.exp
  have ml : Measurable lik := by
    have e : lik = fun f => Real.exp (∑ i, Uni.Normal.logProb (f (.inr i)) (Real.log P.noiseStd) (s.y i)) := funext hlik
    rw [e]
    unfold Uni.Normal.logProb
    fun_prop
  set G := Measure.pi fun _ : Fin nz => gaussianReal 0 1 with hG
  set w := mvnSample flags P.zMean P.zCovTril with hw
  have mw : Measurable w := measurable_sample P
  have hz : q.map (fun (f : Fin nz ⊕ Fin n → ℝ) j => f (.inl j)) = G.map w := by
    rw [hq]
    exact var_at_z hc hcc' hp'
  have hqP : IsProbabilityMeasure q := by
    constructor
    have := congrArg (fun μ => μ Set.univ) hz
    simp only [Measure.map_apply mz MeasurableSet.univ, Measure.map_apply mw MeasurableSet.univ, Set.preimage_univ, measure_univ] at this
    exact this
  have hone : ∫⁻ f, ENNReal.ofReal (d f) ∂prior = 1 := by
    rw [← setLIntegral_univ, ← withDensity_apply _ MeasurableSet.univ]
    change Grad.law prior d Set.univ = 1
    rw [← hlaw]
    exact measure_univ
  have id' : Integrable d prior := by
    refine ⟨md.aestronglyMeasurable, ?_⟩
    rw [hasFiniteIntegral_iff_ofReal (Filter.Eventually.of_forall fun f => (Real.exp_pos _).le), hone]
    exact ENNReal.one_lt_top
  have ilik : Integrable lik prior :=
    (integrable_const _).mono' ml.aestronglyMeasurable (Filter.Eventually.of_forall fun f => lik_le (std ^ 2) (fun i => f (.inr i)) s.y)
  have hev : 0 < Grad.evidence prior lik := by
    refine (integral_pos_iff_support_of_nonneg (fun f => by rw [hlik]; exact (Real.exp_pos _).le) ilik).2 ?_
    have : Function.support lik = Set.univ := by
      ext f
      simp only [Function.mem_support, Set.mem_univ, iff_true, hlik]
      exact (Real.exp_pos _).ne'
    rw [this, measure_univ]
    exact one_pos
  have hM : Grad.LatentModel prior lik d := {
    p_meas := ml
    q_meas := md
    p_nonneg := fun f => by rw [hlik]; exact (Real.exp_pos _).le
    q_nonneg := fun f => (Real.exp_pos _).le
    p_int := ilik
    evidence_pos := hev
    q_int := id'
    q_one := by
      rw [integral_eq_lintegral_of_nonneg_ae (Filter.Eventually.of_forall fun f => (Real.exp_pos _).le) md.aestronglyMeasurable, hone]
      rfl
    supp := fun f h => by rw [hlik] at h; exact absurd h (Real.exp_pos _).ne' }
  -- the expected values under the variational distribution
  have mr : Measurable (ratio P chol) := measurable_ratio hc
  have hrat : Integrable (fun f : Fin nz ⊕ Fin n → ℝ => ratio P chol fun j => f (.inl j)) q ∧
      ∫ f : Fin nz ⊕ Fin n → ℝ, ratio P chol (fun j => f (.inl j)) ∂q = ∫ z, ratio P chol (w z) ∂G := by
    have h1 : Integrable (ratio P chol) (G.map w) := by
      rw [integrable_map_measure mr.aestronglyMeasurable mw.aemeasurable]
      exact integrable_ratio hc
    constructor
    · rw [← hz, integrable_map_measure mr.aestronglyMeasurable mz.aemeasurable] at h1
      exact h1
    · rw [← integral_map mw.aemeasurable mr.aestronglyMeasurable, ← hz, integral_map mz.aemeasurable mr.aestronglyMeasurable]
  have hrow : ∀ i, Integrable (fun f : Fin nz ⊕ Fin n → ℝ => Uni.Normal.logProb (f (.inr i)) (Real.log P.noiseStd) (s.y i)) q ∧
      ∫ f : Fin nz ⊕ Fin n → ℝ, Uni.Normal.logProb (f (.inr i)) (Real.log P.noiseStd) (s.y i) ∂q =
        ∫ u : (Fin nz → ℝ) × ℝ, rowLik P (s.x i, s.y i) (w u.1, u.2) ∂(G.prod (gaussianReal 0 1)) := by
    intro i
    set g : (Fin nz → ℝ) × ℝ → ℝ := fun v => Uni.Normal.logProb v.2 (Real.log P.noiseStd) (s.y i) with hg
    have mg : Measurable g := by simp only [hg]; unfold Uni.Normal.logProb; fun_prop
    set T : (Fin nz → ℝ) × ℝ → (Fin nz → ℝ) × ℝ := fun p => (p.1, ∑ j, p.1 j * coef P (s.x i) j + p.2 * sd P (s.x i)) with hT
    have mT : Measurable T := by simp only [hT]; fun_prop
    have mφ : Measurable fun f : Fin nz ⊕ Fin n → ℝ => ((fun j => f (.inl j) : Fin nz → ℝ), f (.inr i)) := by fun_prop
    have hr := var_at_row hc hcc' hp' i
    rw [← hq] at hr
    have mwi : Measurable (Prod.map w (id : ℝ → ℝ)) := mw.prodMap measurable_id
    have e1 : (G.map w).prod (gaussianReal 0 1) = (G.prod (gaussianReal 0 1)).map (Prod.map w id) := by
      rw [← Measure.map_prod_map _ _ mw measurable_id, Measure.map_id]
    rw [e1, Measure.map_map mT mwi] at hr
    have mc : Measurable (T ∘ Prod.map w (id : ℝ → ℝ)) := mT.comp mwi
    have h1 : Integrable g ((G.prod (gaussianReal 0 1)).map (T ∘ Prod.map w id)) := by
      rw [integrable_map_measure mg.aestronglyMeasurable mc.aemeasurable]
      exact integrable_rowLik (P := P) (s.x i, s.y i)
    have e2 : ∫ u : (Fin nz → ℝ) × ℝ, rowLik P (s.x i, s.y i) (w u.1, u.2) ∂(G.prod (gaussianReal 0 1)) =
        ∫ v, g v ∂((G.prod (gaussianReal 0 1)).map (T ∘ Prod.map w id)) := by
      rw [integral_map mc.aemeasurable mg.aestronglyMeasurable]
      rfl
    constructor
    · rw [← hr, integrable_map_measure mg.aestronglyMeasurable mφ.aemeasurable] at h1
      exact h1
    · rw [e2, ← hr, integral_map mφ.aemeasurable mg.aestronglyMeasurable]
  have iS : Integrable (fun f : Fin nz ⊕ Fin n → ℝ => ∑ i, Uni.Normal.logProb (f (.inr i)) (Real.log P.noiseStd) (s.y i)) q :=
    integrable_finsetSum _ fun i _ => (hrow i).1
  have el : (fun f => Real.log (lik f) - Real.log (d f)) = fun f : Fin nz ⊕ Fin n → ℝ =>
      (ratio P chol fun j => f (.inl j)) + ∑ i, Uni.Normal.logProb (f (.inr i)) (Real.log P.noiseStd) (s.y i) := by
    funext f
    rw [hlik, hd, Real.log_exp, Real.log_exp]
    ring
  have hi : Integrable (fun f => Real.log (lik f) - Real.log (d f)) q := by
    rw [el]
    exact hrat.1.add iS
  obtain ⟨g1, g2⟩ := Grad.C39_elbo_gap (logp := fun f => .const (Real.log (lik f))) (logq := fun f => .const (Real.log (d f))) hM
    (fun _ => rfl) (fun _ => rfl) (by rw [← hlaw]; exact hi) 0
  rw [← hlaw] at g1 g2
  refine ⟨g1, ?_⟩
  rw [← g2]
  have e0 : ∀ σ, ∫ e, (lowerBound P chol n (((s.epochs perms).permute σ).feed b t) e).getD 0 ∂(noise (K + 1) nz _) = _ :=
    fun σ => bound_mean hc hcc' (((s.epochs perms).permute σ).feed b t)
  simp only [e0]
  rw [C92_unbiased s perms b t hb ht]
  simp only [Grad.elboObjective_val, Grad.Dual.const, Grad.samples]
  rw [← hlaw]
  have e1 : ∫ f : Fin (0 + 1) → (Fin nz ⊕ Fin n → ℝ), (∑ k, (Real.log (lik (f k)) - Real.log (d (f k)))) / (0 + 1 : ℕ) ∂(Measure.pi fun _ => q) =
      ∫ f, (Real.log (lik f) - Real.log (d f)) ∂q := by
    have := integral_comp_eval (μ := fun _ : Fin (0 + 1) => q) (i := 0) hi.1
    rw [← this]
    refine integral_congr_ae (Filter.Eventually.of_forall fun f => ?_)
    simp
  rw [e1, el, integral_add hrat.1 iS, hrat.2, integral_finsetSum _ fun i _ => (hrow i).1]
  congr 1
  exact Finset.sum_congr rfl fun i _ => (hrow i).2.symm

/-- **C96.** The marginal likelihood in this formula is that of exact Gaussian process regression: the normal density of the labels with
the kernel matrix of the training inputs plus the noise variance as covariance, whatever the inducing inputs. -/
theorem C96_marginal_likelihood {ζ : Type} [Fintype ζ] (raw : κ → ℝ) (std : NNReal) (hs : 0 < std) (z : ζ → κ → ℝ) (x : Fin n → κ → ℝ)
    (y : Fin n → ℝ) (prior : Measure (ζ ⊕ Fin n → ℝ)) :
    let ell := fun c => Real.log (1 + Real.exp (raw c))
    IsGP ell (Sum.elim z x) prior →
    Grad.evidence prior (likelihood std y) = normalPdf 0 (gram ell x + (std : ℝ) ^ 2 • (1 : Matrix (Fin n) (Fin n) ℝ)) y := by
  intro ell hp
  have hprior : IsProbabilityMeasure prior := hp.prob
  have h := hp.select (fun j : Fin n => (Sum.inr j : ζ ⊕ Fin n))
  have mx : Measurable fun (f : ζ ⊕ Fin n → ℝ) j => f (.inr j) := by fun_prop
  have hQ : Normal (prior.map fun f j => f (.inr j)) (fun f => f) 0 (gram ell x) := h.id_map
  have hpsd : (gram ell x).PosSemidef := by
    have := rbf_posSemidef _ (kScale_pos raw) x
    rw [← gram_eq] at this
    exact this
  have := marginal_eq hQ hpsd std hs y
  rw [integral_map mx.aemeasurable (continuous_lik_f (std ^ 2) y).aestronglyMeasurable] at this
  exact this

/-- **C96.** So on average the bound does not exceed the logarithm of the marginal likelihood of exact Gaussian process regression. -/
theorem C96_le (P : Params κ nz) (chol : Fin nz → Fin nz → ℝ) (s : Arrays n (κ → ℝ) ℝ) (perms : List (Equiv.Perm (Fin n))) (b t : ℕ)
    (hb : 0 < b) (ht : t < itersUp n b) :
    let ell := fun c => Real.log (1 + Real.exp (P.kRaw c))
    let std := Real.log (1 + Real.exp P.noiseRaw)
    Cholesky chol → of chol * (of chol)ᵀ = gram ell P.zPos →
    ∫ σ, ∫ e, (lowerBound P chol n (((s.epochs perms).permute σ).feed b t) e).getD 0 ∂(noise (K + 1) nz _) ∂uniform n ≤
      Real.log (normalPdf 0 (gram ell s.x + std ^ 2 • (1 : Matrix (Fin n) (Fin n) ℝ)) s.y) := by
  intro ell std hc hcc
  obtain ⟨prior, hp⟩ := exists_gp P.kRaw (Sum.elim P.zPos s.x)
  have hs : 0 < std := softplus_pos P.noiseRaw
  have h1 := (C96_elbo (K := K) P chol s perms b t hb ht prior hc hcc hp).2.2
  have h2 := C96_marginal_likelihood P.kRaw (Real.toNNReal std) (Real.toNNReal_pos.2 hs) P.zPos s.x s.y prior hp
  rw [h1, h2, Real.coe_toNNReal _ hs.le]
  exact sub_le_self _ ENNReal.toReal_nonneg

/-- **C96.** What the variational distribution is: at the inducing inputs it is normal with the mean and the covariance that the trainable
variables give, and it is the law of the samples there. -/
theorem C96_variational (P : Params κ nz) (chol : Fin nz → Fin nz → ℝ) (x : Fin n → κ → ℝ) (prior : Measure (Fin nz ⊕ Fin n → ℝ)) :
    let ell := fun c => Real.log (1 + Real.exp (P.kRaw c))
    let S := tril P.zCovRaw * (tril P.zCovRaw)ᵀ
    let q := variational ell P.zPos prior P.zMean S
    Cholesky chol → of chol * (of chol)ᵀ = gram ell P.zPos → IsGP ell (Sum.elim P.zPos x) prior →
    IsProbabilityMeasure q ∧ Normal q (fun f j => f (.inl j)) P.zMean S ∧
    q.map (fun f j => f (.inl j)) = (Measure.pi fun _ => gaussianReal 0 1).map fun e => sampleFz P (fun _ : Fin 1 => e) 0 := by
  intro ell S q hc hcc hp
  have hz : q.map (fun (f : Fin nz ⊕ Fin n → ℝ) j => f (.inl j)) =
      (Measure.pi fun _ : Fin nz => gaussianReal 0 1).map (mvnSample flags P.zMean P.zCovTril) := by
    have := var_at_z (P := P) hc hcc hp
    rw [tril_eq] at this
    exact this
  have mz : Measurable fun (f : Fin nz ⊕ Fin n → ℝ) j => f (.inl j) := by fun_prop
  have mw := measurable_sample P
  have hqP : IsProbabilityMeasure q := by
    constructor
    have := congrArg (fun μ => μ Set.univ) hz
    simp only [Measure.map_apply mz MeasurableSet.univ, Measure.map_apply mw MeasurableSet.univ, Set.preimage_univ, measure_univ] at this
    exact this
  have hN := normal_sample P
  rw [tril_eq] at hN
  exact ⟨hqP, hN.of_map mz.aemeasurable hz, hz⟩

omit [Fintype κ] in
/-- **C96.** The trainable variables reach every normal distribution at the inducing inputs: every mean, and every positive definite
covariance. -/
theorem C96_family (m : Fin nz → ℝ) (S : Matrix (Fin nz) (Fin nz) ℝ) (hS : S.PosDef) (P : Params κ nz) :
    ∃ P' : Params κ nz, P'.kRaw = P.kRaw ∧ P'.noiseRaw = P.noiseRaw ∧ P'.zPos = P.zPos ∧ P'.zMean = m ∧
      tril P'.zCovRaw * (tril P'.zCovRaw)ᵀ = S := by
  obtain ⟨L, h1, h2, h3⟩ := exists_cholesky hS
  refine ⟨{ P with zMean := m, zCovRaw := fun i j => if i = j then Real.log (Real.exp (L i i) - 1) else L i j }, rfl, rfl, rfl, rfl, ?_⟩
  have e : tril (fun i j => if i = j then Real.log (Real.exp (L i i) - 1) else L i j) = of L := by
    ext i j
    simp only [tril, of_apply]
    rcases lt_trichotomy j i with h | h | h
    · rw [if_pos h, if_neg h.ne']
    · subst h
      have : 0 < Real.exp (L j j) - 1 := by
        have := Real.add_one_lt_exp (h2 j).ne'
        linarith [h2 j]
      simp [Real.exp_log this]
    · rw [if_neg (not_lt.2 h.le), if_neg h.ne', h1 i j h]
  rw [e, h3]

/-- A normal prior times a normal likelihood is a normal density, up to a constant. -/
theorem conjugate {ι : Type} [Fintype ι] [DecidableEq ι] {A : Matrix ι ι ℝ} (hA : A.PosDef) (v : NNReal) (hv : 0 < v) (y : ι → ℝ) :
    ∃ (m : ι → ℝ) (S : Matrix ι ι ℝ), S.PosDef ∧ ∃ c, ∀ w : ι → ℝ,
      normalPdf m S w = c * (∏ i, gaussianPDFReal (w i) v (y i)) * normalPdf 0 A w := by
  have hv' : (0 : ℝ) < v := hv
  set B := A⁻¹ + (v : ℝ)⁻¹ • (1 : Matrix ι ι ℝ) with hB
  have hBd : B.PosDef := hA.inv.add (PosDef.one.smul (by positivity))
  have hBu : IsUnit B.det := isUnit_iff_ne_zero.2 hBd.det_pos.ne'
  set m := B⁻¹.mulVec ((v : ℝ)⁻¹ • y) with hm
  have hBm : B.mulVec m = (v : ℝ)⁻¹ • y := by rw [hm, mulVec_mulVec, mul_nonsing_inv _ hBu, one_mulVec]
  have hBt : Bᵀ = B := by
    have := hBd.isHermitian
    rwa [IsHermitian, conjTranspose_eq_transpose_of_trivial] at this
  have c1 : 0 < √((2 * Real.pi) ^ Fintype.card ι * A.det) := Real.sqrt_pos.2 (mul_pos (by positivity) hA.det_pos)
  have c2 : 0 < √(2 * Real.pi * v) := Real.sqrt_pos.2 (by positivity)
  refine ⟨m, B⁻¹, hBd.inv, (√((2 * Real.pi) ^ Fintype.card ι * (B⁻¹).det))⁻¹ * √(2 * Real.pi * v) ^ Fintype.card ι *
    √((2 * Real.pi) ^ Fintype.card ι * A.det) * Real.exp (-(m ⬝ᵥ B.mulVec m - (v : ℝ)⁻¹ * (y ⬝ᵥ y)) / 2), fun w => ?_⟩
  have hlik : ∏ i, gaussianPDFReal (w i) v (y i) =
      (√(2 * Real.pi * v) ^ Fintype.card ι)⁻¹ * Real.exp (-((v : ℝ)⁻¹ * (y ⬝ᵥ y - 2 * (w ⬝ᵥ y) + w ⬝ᵥ w)) / 2) := by
    simp only [gaussianPDFReal, Finset.prod_mul_distrib, Finset.prod_const, Finset.card_univ, inv_pow]
    rw [← Real.exp_sum]
    congr 2
    simp only [dotProduct, Finset.mul_sum, ← Finset.sum_sub_distrib, ← Finset.sum_add_distrib, Finset.sum_div, ← Finset.sum_neg_distrib]
    refine Finset.sum_congr rfl fun i _ => ?_
    field_simp
    ring
  have hquad : (w - m) ⬝ᵥ B.mulVec (w - m) = w ⬝ᵥ A⁻¹.mulVec w + (v : ℝ)⁻¹ * (w ⬝ᵥ w - 2 * (w ⬝ᵥ y)) + m ⬝ᵥ B.mulVec m := by
    have h1 : m ⬝ᵥ B.mulVec w = (v : ℝ)⁻¹ * (w ⬝ᵥ y) := by
      rw [dotProduct_mulVec, ← mulVec_transpose, hBt, hBm, smul_dotProduct, smul_eq_mul, dotProduct_comm]
    have h2 : w ⬝ᵥ B.mulVec m = (v : ℝ)⁻¹ * (w ⬝ᵥ y) := by rw [hBm, dotProduct_smul, smul_eq_mul]
    have h3 : w ⬝ᵥ B.mulVec w = w ⬝ᵥ A⁻¹.mulVec w + (v : ℝ)⁻¹ * (w ⬝ᵥ w) := by
      rw [hB, add_mulVec, smul_mulVec, one_mulVec, dotProduct_add, dotProduct_smul, smul_eq_mul]
    rw [mulVec_sub, sub_dotProduct, dotProduct_sub, dotProduct_sub, h1, h2, h3]
    ring
  rw [hlik, normalPdf, normalPdf, nonsing_inv_nonsing_inv _ hBu, hquad, sub_zero]
  have e : Real.exp (-(w ⬝ᵥ A⁻¹.mulVec w + (v : ℝ)⁻¹ * (w ⬝ᵥ w - 2 * (w ⬝ᵥ y)) + m ⬝ᵥ B.mulVec m) / 2) =
      Real.exp (-(m ⬝ᵥ B.mulVec m - (v : ℝ)⁻¹ * (y ⬝ᵥ y)) / 2) * Real.exp (-((v : ℝ)⁻¹ * (y ⬝ᵥ y - 2 * (w ⬝ᵥ y) + w ⬝ᵥ w)) / 2) *
        Real.exp (-(w ⬝ᵥ A⁻¹.mulVec w) / 2) := by
    rw [← Real.exp_add, ← Real.exp_add]
    congr 1
    ring
  rw [e]
  field_simp

/-- The same point twice: the values agree. -/
theorem gp_same {raw : κ → ℝ} {x : Fin n → κ → ℝ} {prior : Measure (Fin n ⊕ Fin n → ℝ)}
    (hp : IsGP (fun c => Real.log (1 + Real.exp (raw c))) (Sum.elim x x) prior) : ∀ᵐ f ∂prior, ∀ i, f (.inl i) = f (.inr i) := by
  have hprior : IsProbabilityMeasure prior := hp.prob
  rw [ae_all_iff]
  intro i
  have h1 := hp.lp (.inl i)
  have h2 := hp.lp (.inr i)
  have hv : Var[(fun f : Fin n ⊕ Fin n → ℝ => f (.inl i)) - fun f => f (.inr i); prior] = 0 := by
    rw [variance_sub h1 h2, ← covariance_self h1.aemeasurable, ← covariance_self h2.aemeasurable, hp.cov, hp.cov, hp.cov]
    simp only [gram, of_apply, Sum.elim_inl, Sum.elim_inr, kernel_self]
    norm_num
  have h3 := ae_eq_integral_of_variance_eq_zero (h1.sub h2) hv
  have h4 : ∫ f : Fin n ⊕ Fin n → ℝ, ((fun f : Fin n ⊕ Fin n → ℝ => f (.inl i)) - fun f : Fin n ⊕ Fin n → ℝ => f (.inr i)) f ∂prior =
      (0 : ℝ) := by
    have := integral_sub (hp.int (.inl i)) (hp.int (.inr i))
    rw [hp.mean, hp.mean] at this
    simpa using this
  filter_upwards [h3] with f hf
  rw [h4] at hf
  exact sub_eq_zero.1 hf

/-- **C96.** With the training inputs as inducing inputs the bound is attained: for some values of the variational variables its expected value
is the logarithm of the marginal likelihood of exact Gaussian process regression, in every batch. -/
theorem C96_tight (kRaw : κ → ℝ) (noiseRaw : ℝ) (s : Arrays n (κ → ℝ) ℝ) (hx : Function.Injective s.x) :
    let ell := fun c => Real.log (1 + Real.exp (kRaw c))
    let std := Real.log (1 + Real.exp noiseRaw)
    ∃ (P : Params κ n) (chol : Fin n → Fin n → ℝ), P.kRaw = kRaw ∧ P.noiseRaw = noiseRaw ∧ P.zPos = s.x ∧
      Cholesky chol ∧ of chol * (of chol)ᵀ = gram ell s.x ∧
      ∀ (K : ℕ) (perms : List (Equiv.Perm (Fin n))) (b t : ℕ), 0 < b → t < itersUp n b →
        ∫ σ, ∫ e, (lowerBound P chol n (((s.epochs perms).permute σ).feed b t) e).getD 0 ∂(noise (K + 1) n _) ∂uniform n =
          Real.log (normalPdf 0 (gram ell s.x + std ^ 2 • (1 : Matrix (Fin n) (Fin n) ℝ)) s.y) := by
  intro ell std
  have hs : 0 < std := softplus_pos noiseRaw
  have hs' : 0 < Real.toNNReal std := Real.toNNReal_pos.2 hs
  have hpd : (gram ell s.x).PosDef := by
    have := rbf_posDef _ (kScale_pos kRaw) s.x hx
    rw [← gram_eq] at this
    exact this
  obtain ⟨chol, a1, a2, a3⟩ := exists_cholesky hpd
  obtain ⟨m, S, hS, c, hcS⟩ := conjugate hpd (Real.toNNReal std ^ 2) (pow_pos hs' 2) s.y
  obtain ⟨P, p1, p2, p3, p4, p5⟩ := C96_family m S hS (⟨kRaw, noiseRaw, s.x, 0, 0⟩ : Params κ n)
  simp only at p1 p2 p3
  refine ⟨P, chol, p1, p2, p3, ⟨a1, a2⟩, a3, fun K perms b t hb ht => ?_⟩
  obtain ⟨prior, hp⟩ := exists_gp kRaw (Sum.elim s.x s.x)
  have hprior : IsProbabilityMeasure prior := hp.prob
  have hp' : IsGP (fun c => Real.log (1 + Real.exp (P.kRaw c))) (Sum.elim P.zPos s.x) prior := by rw [p1, p3]; exact hp
  have hcc : of chol * (of chol)ᵀ = gram (fun c => Real.log (1 + Real.exp (P.kRaw c))) P.zPos := by rw [p1, p3]; exact a3
  have h1 := (C96_elbo (K := K) P chol s perms b t hb ht prior ⟨a1, a2⟩ hcc hp').2.2
  have hq := (C96_variational P chol s.x prior ⟨a1, a2⟩ hcc hp').1
  rw [p1, p2, p3, p4, p5] at h1
  rw [p1, p3, p4, p5] at hq
  have h2 := C96_marginal_likelihood kRaw (Real.toNNReal std) hs' s.x s.x s.y prior hp
  set lik := likelihood (ζ := Fin n) (Real.toNNReal std) s.y with hlik
  have hdens : variational ell s.x prior m S = prior.withDensity fun f => ENNReal.ofReal (c * lik f) := by
    refine withDensity_congr_ae ?_
    filter_upwards [gp_same hp] with f hf
    have hpos : 0 < normalPdf 0 (gram ell s.x) fun i => f (.inl i) := by
      have := hpd.det_pos
      unfold normalPdf
      positivity
    rw [hcS, mul_div_cancel_right₀ _ hpos.ne', hlik, likelihood]
    simp only [hf]
  have ml : Continuous lik := (continuous_lik_f (Real.toNNReal std ^ 2) s.y).comp (by fun_prop : Continuous fun (f : Fin n ⊕ Fin n → ℝ) i => f (.inr i))
  have l0 : ∀ f, 0 ≤ lik f := fun f => Finset.prod_nonneg fun i _ => gaussianPDFReal_nonneg _ _ _
  have il : Integrable lik prior :=
    (integrable_const _).mono' ml.aestronglyMeasurable (Filter.Eventually.of_forall fun f => lik_le _ (fun i => f (.inr i)) s.y)
  have hone : ∫⁻ f, ENNReal.ofReal (c * lik f) ∂prior = 1 := by
    rw [← setLIntegral_univ, ← withDensity_apply _ MeasurableSet.univ, ← hdens]
    exact hq.measure_univ
  have hc0 : 0 < c := by
    by_contra hneg
    have : ∀ f, ENNReal.ofReal (c * lik f) = 0 := fun f => ENNReal.ofReal_of_nonpos (mul_nonpos_of_nonpos_of_nonneg (not_lt.1 hneg) (l0 f))
    simp [this] at hone
  have hce : c * Grad.evidence prior lik = 1 := by
    rw [← ofReal_integral_eq_lintegral_ofReal (il.const_mul c) (Filter.Eventually.of_forall fun f => mul_nonneg hc0.le (l0 f)),
      integral_const_mul, ENNReal.ofReal_eq_one] at hone
    exact hone
  have hev : Grad.evidence prior lik ≠ 0 := fun h => by rw [h, mul_zero] at hce; exact zero_ne_one hce
  have hpost : Grad.posterior prior lik = variational ell s.x prior m S := by
    rw [hdens, Grad.posterior]
    congr 1
    funext f
    congr 1
    rw [div_eq_iff hev, mul_comm c, mul_assoc, hce, mul_one]
  rw [h1]
  change Real.log (Grad.evidence prior lik) - (klDiv (variational ell s.x prior m S) (Grad.posterior prior lik)).toReal = _
  have hq' : IsProbabilityMeasure (variational ell s.x prior m S) := hq
  rw [hpost, klDiv_self, h2, Real.coe_toNNReal _ hs.le, ENNReal.toReal_zero, sub_zero]

/-- A concrete case: two training points, one inducing input, batches of one. -/
example : let P : Params (Fin 1) 1 := ⟨fun _ => 0, 0, fun _ _ => 0, fun _ => 1, fun _ _ => 2⟩
    let ell := fun c => Real.log (1 + Real.exp (P.kRaw c))
    let s : Arrays 2 (Fin 1 → ℝ) ℝ := ⟨fun i _ => i, fun i => 1 - i⟩
    Cholesky (fun _ _ : Fin 1 => (1 : ℝ)) ∧ of (fun _ _ : Fin 1 => (1 : ℝ)) * (of fun _ _ : Fin 1 => (1 : ℝ))ᵀ = gram ell P.zPos ∧
    (∃ prior, IsGP ell (Sum.elim P.zPos s.x) prior) ∧ Function.Injective s.x ∧ 1 < itersUp 2 1 := by
  refine ⟨⟨fun i j h => absurd h (by simp [Subsingleton.elim i j]), fun _ => one_pos⟩, ?_, exists_gp _ _, ?_, by decide⟩
  · ext i j
    simp [Matrix.mul_apply, gram, kernel]
  · intro i j h
    have := congrFun h 0
    simp only at this
    exact Fin.ext (by exact_mod_cast this)

end

end ZhuSuan.Svgp
