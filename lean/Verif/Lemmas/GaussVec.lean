import Mathlib.Probability.Distributions.Gaussian.CharFun
import Mathlib.Topology.Algebra.Module.FiniteDimension
import Verif.Spec.GaussVec

set_option autoImplicit false

open MeasureTheory ProbabilityTheory Matrix

namespace ZhuSuan.Sgmcmc

variable {Ω : Type} {mΩ : MeasurableSpace Ω} {P : Measure Ω}
variable {ι κ ι' : Type} [Fintype ι] [Fintype κ] [Fintype ι']

namespace Normal

variable {X : Ω → ι → ℝ} {m : ι → ℝ} {S : Matrix ι ι ℝ}

theorem prob (h : Normal P X m S) : IsProbabilityMeasure P := h.law.isProbabilityMeasure

theorem lp (h : Normal P X m S) (i : ι) : MemLp (fun ω => X ω i) 2 P :=
  (h.law.map_of_measurable (ContinuousLinearMap.proj i) (measurable_pi_apply i)).memLp_two

theorem int (h : Normal P X m S) (i : ι) : Integrable (fun ω => X ω i) P :=
  have := h.prob
  (h.lp i).integrable (by norm_num)

/-- Affine image of a normal vector and independent normal noise. -/
theorem affine {W : Ω → κ → ℝ} {T : Matrix κ κ ℝ} (hX : Normal P X m S) (hW : Normal P W 0 T)
    (hi : IndepFun X W P) (A : Matrix ι' ι ℝ) (C : Matrix ι' κ ℝ) (b : ι' → ℝ) :
    Normal P (fun ω => b + A.mulVec (X ω) + C.mulVec (W ω)) (b + A.mulVec m)
      (A * S * Aᵀ + C * T * Cᵀ) := by
  have := hX.prob
  have hLX : ∀ i, MemLp (fun ω => A.mulVec (X ω) i) 2 P := fun i => by
    simp only [mulVec, dotProduct]
    exact memLp_finsetSum _ fun k _ => (hX.lp k).const_mul _
  have hLW : ∀ i, MemLp (fun ω => C.mulVec (W ω) i) 2 P := fun i => by
    simp only [mulVec, dotProduct]
    exact memLp_finsetSum _ fun k _ => (hW.lp k).const_mul _
  refine ⟨?_, fun i => ?_, fun i j => ?_⟩
  · have hj := hi.hasGaussianLaw hX.law hW.law
    let f : (ι → ℝ) × (κ → ℝ) →L[ℝ] (ι' → ℝ) := LinearMap.toContinuousLinearMap
      (A.mulVecLin.comp (LinearMap.fst ℝ _ _) + C.mulVecLin.comp (LinearMap.snd ℝ _ _))
    have hm := hj.map f
    constructor
    have hg := hm.isGaussian_map
    have e : (fun ω => b + A.mulVec (X ω) + C.mulVec (W ω)) = (fun y => b + y) ∘
        (f ∘ fun ω => (X ω, W ω)) := by
      funext ω
      simp [f, add_assoc]
    rw [e, ← AEMeasurable.map_map_of_aemeasurable (by fun_prop) hm.aemeasurable]
    infer_instance
  · simp only [Pi.add_apply]
    have i1 : Integrable (fun ω => A.mulVec (X ω) i) P := (hLX i).integrable (by norm_num)
    have i2 : Integrable (fun ω => C.mulVec (W ω) i) P := (hLW i).integrable (by norm_num)
    have i0 : Integrable (fun _ : Ω => b i) P := integrable_const _
    have i3 : Integrable (fun ω => b i + A.mulVec (X ω) i) P := i0.add i1
    rw [integral_add i3 i2, integral_add i0 i1]
    simp only [mulVec, dotProduct]
    rw [integral_finsetSum _ fun k _ => (hX.int k).const_mul _,
      integral_finsetSum _ fun k _ => (hW.int k).const_mul _]
    simp [integral_const_mul, hX.mean, hW.mean]
  · simp only [Pi.add_apply]
    have e : ∀ i, (fun ω => b i + A.mulVec (X ω) i + C.mulVec (W ω) i) =
        fun ω => b i + ((fun ω => A.mulVec (X ω) i) + fun ω => C.mulVec (W ω) i) ω := fun i => by
      funext ω
      simp [add_assoc]
    have hxw : ∀ i j, cov[fun ω => A.mulVec (X ω) i, fun ω => C.mulVec (W ω) j; P] = 0 := fun i j => by
      refine IndepFun.covariance_eq_zero ?_ (hLX i) (hLW j)
      exact hi.comp (φ := fun x => A.mulVec x i) (ψ := fun w => C.mulVec w j)
        (by simp only [mulVec, dotProduct]; fun_prop) (by simp only [mulVec, dotProduct]; fun_prop)
    rw [e i, e j, covariance_const_add_left (((hLX i).add (hLW i)).integrable (by norm_num)),
      covariance_const_add_right (((hLX j).add (hLW j)).integrable (by norm_num)),
      covariance_add_left (hLX i) (hLW i) ((hLX j).add (hLW j)),
      covariance_add_right (hLX i) (hLX j) (hLW j), covariance_add_right (hLW i) (hLX j) (hLW j),
      hxw i j, covariance_comm (fun ω => C.mulVec (W ω) i), hxw j i]
    simp only [mulVec, dotProduct, add_zero, zero_add]
    rw [covariance_fun_sum_fun_sum (fun k => (hX.lp k).const_mul _) (fun k => (hX.lp k).const_mul _),
      covariance_fun_sum_fun_sum (fun k => (hW.lp k).const_mul _) (fun k => (hW.lp k).const_mul _)]
    simp only [covariance_const_mul_left, covariance_const_mul_right, hX.cov, hW.cov]
    rw [Matrix.add_apply, Matrix.mul_apply, Matrix.mul_apply]
    simp only [Matrix.mul_apply, transpose_apply, Finset.sum_mul]
    congr 1
    · rw [Finset.sum_comm]
      exact Finset.sum_congr rfl fun k _ => Finset.sum_congr rfl fun l _ => by ring
    · rw [Finset.sum_comm]
      exact Finset.sum_congr rfl fun k _ => Finset.sum_congr rfl fun l _ => by ring

/-- The characteristic function of a normal vector. -/
theorem charFun_eq (h : Normal P X m S) (t : EuclideanSpace ℝ ι) :
    charFun (P.map fun ω => WithLp.toLp 2 (X ω)) t =
      Complex.exp ((∑ k, t k * m k : ℝ) * Complex.I - (∑ k, ∑ l, t k * t l * S k l : ℝ) / 2) := by
  have := h.prob
  have hg : HasGaussianLaw (fun ω => WithLp.toLp 2 (X ω)) P := HasGaussianLaw.toLp_pi 2 (X := fun i ω => X ω i) h.law
  rw [hg.charFun_map_eq]
  have e : (fun ω => inner ℝ t (WithLp.toLp 2 (X ω))) = fun ω => ∑ k, t k * X ω k := by
    funext ω
    rw [PiLp.inner_apply]
    exact Finset.sum_congr rfl fun k _ => by simp [mul_comm]
  have hl : ∀ k, MemLp (fun ω => t k * X ω k) 2 P := fun k => (h.lp k).const_mul _
  rw [e, ← covariance_self (memLp_finsetSum _ fun k _ => hl k).aestronglyMeasurable.aemeasurable,
    covariance_fun_sum_fun_sum hl hl, integral_finsetSum _ fun k _ => (h.int k).const_mul _]
  simp only [covariance_const_mul_left, covariance_const_mul_right, h.cov, integral_const_mul, h.mean]
  congr 4
  push_cast
  exact Finset.sum_congr rfl fun k _ => Finset.sum_congr rfl fun l _ => by ring

/-- Mean and covariance determine the law. -/
theorem unique {Ω' : Type} {mΩ' : MeasurableSpace Ω'} {P' : Measure Ω'} {X' : Ω' → ι → ℝ}
    (h : Normal P X m S) (h' : Normal P' X' m S) : P.map X = P'.map X' := by
  have := h.prob
  have := h'.prob
  have hX := h.law.aemeasurable
  have hX' := h'.law.aemeasurable
  have e : P.map (fun ω => WithLp.toLp 2 (X ω)) = P'.map fun ω => WithLp.toLp 2 (X' ω) := by
    have := Measure.isProbabilityMeasure_map (μ := P) (f := fun ω => WithLp.toLp 2 (X ω)) (by fun_prop)
    have := Measure.isProbabilityMeasure_map (μ := P') (f := fun ω => WithLp.toLp 2 (X' ω)) (by fun_prop)
    refine Measure.ext_of_charFun ?_
    funext t
    rw [h.charFun_eq, h'.charFun_eq]
  have e2 := congrArg (fun μ => μ.map (WithLp.ofLp : EuclideanSpace ℝ ι → ι → ℝ)) e
  simp only at e2
  rw [AEMeasurable.map_map_of_aemeasurable (by fun_prop) (by fun_prop),
    AEMeasurable.map_map_of_aemeasurable (by fun_prop) (by fun_prop)] at e2
  exact e2

end Normal

end ZhuSuan.Sgmcmc
