import Mathlib.Analysis.SpecificLimits.Basic
import Mathlib.LinearAlgebra.Matrix.PosDef
import Mathlib.MeasureTheory.Measure.LevyConvergence
import Mathlib.Topology.Instances.Matrix
import Verif.Lemmas.GaussVec

set_option autoImplicit false

open MeasureTheory ProbabilityTheory Matrix Filter Topology

namespace ZhuSuan.Sgmcmc

/-! ## Quadratic forms -/

section Stable

variable {ι : Type} [Fintype ι]

/-- The quadratic form of a matrix. -/
def qf (S : Matrix ι ι ℝ) (u : ι → ℝ) : ℝ := u ⬝ᵥ S.mulVec u

theorem qf_cont (S : Matrix ι ι ℝ) : Continuous (qf S) := by
  unfold qf
  fun_prop

theorem qf_smul (S : Matrix ι ι ℝ) (c : ℝ) (u : ι → ℝ) : qf S (c • u) = c ^ 2 * qf S u := by
  simp only [qf, mulVec_smul, smul_dotProduct, dotProduct_smul, smul_eq_mul]
  ring

theorem qf_add (S T : Matrix ι ι ℝ) (u : ι → ℝ) : qf (S + T) u = qf S u + qf T u := by
  simp [qf, add_mulVec]

theorem qf_conj {κ : Type} [Fintype κ] (A : Matrix ι κ ℝ) (S : Matrix κ κ ℝ) (u : ι → ℝ) :
    qf (A * S * Aᵀ) u = qf S (Aᵀ.mulVec u) := by
  simp only [qf, ← mulVec_mulVec, dotProduct_mulVec, vecMul_transpose]
  rw [mulVec_transpose]

theorem qf_zero (S : Matrix ι ι ℝ) : qf S 0 = 0 := by simp [qf]

theorem qf_pos {S : Matrix ι ι ℝ} (hS : S.PosDef) {u : ι → ℝ} (hu : u ≠ 0) : 0 < qf S u := by
  simpa [qf] using hS.dotProduct_mulVec_pos hu

theorem qf_nonneg {S : Matrix ι ι ℝ} (hS : S.PosDef) (u : ι → ℝ) : 0 ≤ qf S u := by
  rcases eq_or_ne u 0 with rfl | hu
  · rw [qf_zero]
  · exact (qf_pos hS hu).le

/-- The variance of a linear combination of the components of a normal vector. -/
theorem Normal.var {Ω : Type} {mΩ : MeasurableSpace Ω} {P : Measure Ω} {X : Ω → ι → ℝ} {m : ι → ℝ}
    {S : Matrix ι ι ℝ} (h : Normal P X m S) (u : ι → ℝ) : Var[fun ω => u ⬝ᵥ X ω; P] = qf S u := by
  have := h.prob
  have hl : ∀ k, MemLp (fun ω => u k * X ω k) 2 P := fun k => (h.lp k).const_mul _
  simp only [dotProduct]
  rw [← covariance_self (memLp_finsetSum _ fun k _ => hl k).aestronglyMeasurable.aemeasurable,
    covariance_fun_sum_fun_sum hl hl]
  simp only [covariance_const_mul_left, covariance_const_mul_right, h.cov, qf, dotProduct, mulVec,
    Finset.mul_sum]
  exact Finset.sum_congr rfl fun k _ => Finset.sum_congr rfl fun l _ => by ring

/-! ## Stable linear recursions -/

/-- A continuous function that is homogeneous of degree two and smaller than a positive definite form is at
most a fixed part of it. -/
theorem ratio {S : Matrix ι ι ℝ} (hS : S.PosDef) (g : (ι → ℝ) → ℝ) (hg : Continuous g)
    (hh : ∀ (c : ℝ) u, g (c • u) = c ^ 2 * g u) (hlt : ∀ u, u ≠ 0 → g u < qf S u) :
    ∃ c, 0 ≤ c ∧ c < 1 ∧ ∀ u, g u ≤ c * qf S u := by
  have hK : IsCompact (Metric.sphere (0 : ι → ℝ) 1) := isCompact_sphere 0 1
  have hne : ∀ u ∈ Metric.sphere (0 : ι → ℝ) 1, u ≠ 0 := fun u hu h => by
    simp [h] at hu
  have h0 : g 0 = 0 := by simpa using hh 0 0
  rcases (Metric.sphere (0 : ι → ℝ) 1).eq_empty_or_nonempty with he | hn
  · refine ⟨0, le_rfl, by norm_num, fun u => ?_⟩
    have : u = 0 := by
      by_contra hu
      have : ‖u‖⁻¹ • u ∈ Metric.sphere (0 : ι → ℝ) 1 := by
        simp [norm_smul, inv_mul_cancel₀ (norm_ne_zero_iff.2 hu)]
      rw [he] at this
      exact this
    simp [this, h0]
  · obtain ⟨w, hw, hmax⟩ := hK.exists_isMaxOn hn
      (f := fun u => g u / qf S u) (hg.continuousOn.div (qf_cont S).continuousOn
        fun u hu => (qf_pos hS (hne u hu)).ne')
    have hc1 : g w / qf S w < 1 := (div_lt_one (qf_pos hS (hne w hw))).2 (hlt w (hne w hw))
    refine ⟨max 0 (g w / qf S w), le_max_left _ _, max_lt (by norm_num) hc1, fun u => ?_⟩
    rcases eq_or_ne u 0 with rfl | hu
    · simp [h0, qf_zero]
    · have hn : ‖u‖ ≠ 0 := norm_ne_zero_iff.2 hu
      have hm : ‖u‖⁻¹ • u ∈ Metric.sphere (0 : ι → ℝ) 1 := by
        simp [norm_smul, inv_mul_cancel₀ hn]
      have := hmax hm
      simp only [Set.mem_ofPred_eq, hh, qf_smul] at this
      rw [mul_div_mul_left _ _ (by positivity)] at this
      have h2 := (div_le_iff₀ (qf_pos hS hu)).1 (this.trans (le_max_right 0 _))
      exact h2

variable [DecidableEq ι]

/-- A linear recursion with noise that has a positive definite stationary covariance forgets its start, if the
noise is seen in every direction within two steps. -/
theorem pow_tendsto_zero {A S N : Matrix ι ι ℝ} (hS : S.PosDef) (hst : A * S * Aᵀ + N = S)
    (hN : ∀ u, 0 ≤ qf N u) (hobs : ∀ u, qf N u = 0 → qf N (Aᵀ.mulVec u) = 0 → u = 0) :
    Tendsto (fun n => A ^ n) atTop (𝓝 0) := by
  have hstep : ∀ u, qf S (Aᵀ.mulVec u) = qf S u - qf N u := fun u => by
    have := qf_add (A * S * Aᵀ) N u
    rw [hst, qf_conj] at this
    linarith
  have hle : ∀ u, qf S (Aᵀ.mulVec u) ≤ qf S u := fun u => by
    rw [hstep]
    linarith [hN u]
  obtain ⟨c, hc0, hc1, hc⟩ := ratio hS (fun u => qf S (Aᵀ.mulVec (Aᵀ.mulVec u)))
    ((qf_cont S).comp (by fun_prop)) (fun c u => by simp only [mulVec_smul, qf_smul]) (fun u hu => by
      rw [hstep, hstep]
      have h1 := hN u
      have h2 := hN (Aᵀ.mulVec u)
      by_contra h
      exact hu (hobs u (by linarith) (by linarith)))
  -- the form bounds each component
  have hcomp : ∀ k, ∃ b, 0 < b ∧ ∀ u : ι → ℝ, u k ^ 2 ≤ b * qf S u := fun k => by
    have hK : IsCompact (Metric.sphere (0 : ι → ℝ) 1) := isCompact_sphere 0 1
    have hne : ∀ u ∈ Metric.sphere (0 : ι → ℝ) 1, u ≠ 0 := fun u hu h => by
      simp [h] at hu
    have hn : (Metric.sphere (0 : ι → ℝ) 1).Nonempty :=
      ⟨Pi.single k 1, by rw [mem_sphere_zero_iff_norm, Pi.norm_single]; simp⟩
    obtain ⟨w, hw, hmin⟩ := hK.exists_isMinOn hn (f := qf S) (qf_cont S).continuousOn
    have hwp := qf_pos hS (hne w hw)
    refine ⟨(qf S w)⁻¹, by positivity, fun u => ?_⟩
    rcases eq_or_ne u 0 with rfl | hu
    · simp [qf_zero]
    · have hn : ‖u‖ ≠ 0 := norm_ne_zero_iff.2 hu
      have hm : ‖u‖⁻¹ • u ∈ Metric.sphere (0 : ι → ℝ) 1 := by
        simp [norm_smul, inv_mul_cancel₀ hn]
      have := hmin hm
      simp only [Set.mem_ofPred_eq, qf_smul] at this
      have hk : |u k| ≤ ‖u‖ := norm_le_pi_norm u k
      have h1 : u k ^ 2 ≤ ‖u‖ ^ 2 := by
        rw [← sq_abs]
        exact pow_le_pow_left₀ (abs_nonneg _) hk 2
      have h2 : qf S w * ‖u‖ ^ 2 ≤ qf S u := by
        have e : qf S u = ‖u‖⁻¹ ^ 2 * qf S u * ‖u‖ ^ 2 := by
          field_simp
        rw [e]
        exact mul_le_mul_of_nonneg_right this (by positivity)
      rw [inv_mul_eq_div, le_div_iff₀ hwp]
      nlinarith
  have hev : ∀ n u, qf S ((Aᵀ ^ (2 * n)).mulVec u) ≤ c ^ n * qf S u := fun n => by
    induction n with
    | zero => simp
    | succ n ih =>
      intro u
      have e : Aᵀ ^ (2 * (n + 1)) = Aᵀ ^ (2 * n) * (Aᵀ * Aᵀ) := by
        rw [mul_add, pow_add, mul_one, sq]
      rw [e, ← mulVec_mulVec, ← mulVec_mulVec]
      calc _ ≤ c ^ n * qf S (Aᵀ.mulVec (Aᵀ.mulVec u)) := ih _
        _ ≤ c ^ n * (c * qf S u) := mul_le_mul_of_nonneg_left (hc u) (pow_nonneg hc0 n)
        _ = _ := by ring
  have hall : ∀ n u, qf S ((Aᵀ ^ n).mulVec u) ≤ c ^ (n / 2) * qf S u := fun n u => by
    rcases Nat.even_or_odd' n with ⟨k, rfl | rfl⟩
    · simpa using hev k u
    · have : (2 * k + 1) / 2 = k := by omega
      rw [this, pow_succ', ← mulVec_mulVec]
      exact (hle _).trans (hev k u)
  have hdiv : Tendsto (fun n : ℕ => n / 2) atTop atTop :=
    Nat.tendsto_div_const_atTop (by norm_num)
  have hpow : Tendsto (fun n : ℕ => c ^ (n / 2)) atTop (𝓝 0) :=
    (tendsto_pow_atTop_nhds_zero_of_lt_one hc0 hc1).comp hdiv
  refine tendsto_pi_nhds.2 fun i => tendsto_pi_nhds.2 fun j => ?_
  obtain ⟨b, hb, hbu⟩ := hcomp j
  have key : ∀ n, ((A ^ n) i j) ^ 2 ≤ b * (c ^ (n / 2) * qf S (Pi.single i 1)) := fun n => by
    have e : (A ^ n) i j = (Aᵀ ^ n).mulVec (Pi.single i 1) j := by
      rw [← transpose_pow, mulVec_single_one]
      rfl
    rw [e]
    exact (hbu _).trans (mul_le_mul_of_nonneg_left (hall n _) hb.le)
  have hsq : Tendsto (fun n => ((A ^ n) i j) ^ 2) atTop (𝓝 0) := by
    refine squeeze_zero (fun _ => sq_nonneg _) key ?_
    simpa using (hpow.mul_const (qf S (Pi.single i 1))).const_mul b
  have := hsq.sqrt
  simp only [Real.sqrt_sq_eq_abs, Real.sqrt_zero] at this
  exact (tendsto_zero_iff_abs_tendsto_zero _).2 this

end Stable

/-! ## Normal linear recursions -/

section Run

variable {Ω : Type} {mΩ : MeasurableSpace Ω} {P : Measure Ω}
variable {ι κ : Type} [Fintype ι] [Fintype κ] [DecidableEq ι]

/-- A linear recursion with fresh normal noise. -/
structure LinRun (P : Measure Ω) (A : Matrix ι ι ℝ) (C : Matrix ι κ ℝ) (T : Matrix κ κ ℝ) (b : ι → ℝ)
    (X : ℕ → Ω → ι → ℝ) (W : ℕ → Ω → κ → ℝ) : Prop where
  step : ∀ n ω, X (n + 1) ω = b + A.mulVec (X n ω) + C.mulVec (W n ω)
  noise : ∀ n, Normal P (W n) 0 T
  fresh : ∀ n, IndepFun (X n) (W n) P

variable {A S S0 : Matrix ι ι ℝ} {C : Matrix ι κ ℝ} {T : Matrix κ κ ℝ} {b m m0 : ι → ℝ}
  {X : ℕ → Ω → ι → ℝ} {W : ℕ → Ω → κ → ℝ}

theorem LinRun.law (h : LinRun P A C T b X W) (hm : b + A.mulVec m = m) (hst : A * S * Aᵀ + C * T * Cᵀ = S)
    (h0 : Normal P (X 0) m0 S0) (n : ℕ) :
    Normal P (X n) (m + (A ^ n).mulVec (m0 - m)) (S + A ^ n * (S0 - S) * (A ^ n)ᵀ) := by
  induction n with
  | zero => simpa using h0
  | succ n ih =>
    have := ih.affine (h.noise n) (h.fresh n) A C b
    have e : (fun ω => b + A.mulVec (X n ω) + C.mulVec (W n ω)) = X (n + 1) := by
      funext ω
      exact (h.step n ω).symm
    rw [e] at this
    have e1 : b + A.mulVec (m + (A ^ n).mulVec (m0 - m)) = m + (A ^ (n + 1)).mulVec (m0 - m) := by
      rw [mulVec_add, mulVec_mulVec, ← pow_succ', ← add_assoc, hm]
    have e2 : A * (S + A ^ n * (S0 - S) * (A ^ n)ᵀ) * Aᵀ + C * T * Cᵀ =
        S + A ^ (n + 1) * (S0 - S) * (A ^ (n + 1))ᵀ := by
      have : A ^ (n + 1) * (S0 - S) * (A ^ (n + 1))ᵀ = A * (A ^ n * (S0 - S) * (A ^ n)ᵀ) * Aᵀ := by
        rw [pow_succ' A n, transpose_mul]
        simp only [Matrix.mul_assoc]
      rw [this, mul_add, add_mul]
      generalize A * (A ^ n * (S0 - S) * (A ^ n)ᵀ) * Aᵀ = Z
      conv_rhs => rw [← hst]
      abel
    rwa [e1, e2] at this

theorem LinRun.fixed (h : LinRun P A C T b X W) (hm : b + A.mulVec m = m) (hst : A * S * Aᵀ + C * T * Cᵀ = S)
    (h0 : Normal P (X 0) m S) (n : ℕ) : Normal P (X n) m S := by
  simpa using h.law hm hst h0 n

/-- Normal vectors whose means and covariances converge to those of a normal vector converge in
distribution. -/
theorem Normal.tendsto {Ω' : Type} {mΩ' : MeasurableSpace Ω'} {P' : Measure Ω'} {Y : Ω' → ι → ℝ}
    {ms : ℕ → ι → ℝ} {Ss : ℕ → Matrix ι ι ℝ} (h : ∀ n, Normal P (X n) (ms n) (Ss n)) (hY : Normal P' Y m S)
    (hm : Tendsto ms atTop (𝓝 m)) (hS : Tendsto Ss atTop (𝓝 S)) (f : BoundedContinuousFunction (ι → ℝ) ℝ) :
    Tendsto (fun n => ∫ ω, f (X n ω) ∂P) atTop (𝓝 (∫ ω, f (Y ω) ∂P')) := by
  have hP := (h 0).prob
  have hP' := hY.prob
  have mX := fun n => (h n).law.aemeasurable
  have mY := hY.law.aemeasurable
  let μ : ℕ → ProbabilityMeasure (EuclideanSpace ℝ ι) := fun n =>
    ⟨P.map fun ω => WithLp.toLp 2 (X n ω), Measure.isProbabilityMeasure_map (by have := mX n; fun_prop)⟩
  let ν : ProbabilityMeasure (EuclideanSpace ℝ ι) :=
    ⟨P'.map fun ω => WithLp.toLp 2 (Y ω), Measure.isProbabilityMeasure_map (by fun_prop)⟩
  have hw : Tendsto μ atTop (𝓝 ν) := by
    refine ProbabilityMeasure.tendsto_iff_tendsto_charFun.2 fun t => ?_
    have e1 : ∀ n, charFun (μ n : Measure (EuclideanSpace ℝ ι)) t = _ := fun n => (h n).charFun_eq t
    have e2 : charFun (ν : Measure (EuclideanSpace ℝ ι)) t = _ := hY.charFun_eq t
    simp only [e1, e2]
    have hmk : ∀ k, Tendsto (fun n => ms n k) atTop (𝓝 (m k)) := fun k => (tendsto_pi_nhds.1 hm) k
    have hSk : ∀ k l, Tendsto (fun n => Ss n k l) atTop (𝓝 (S k l)) := fun k l =>
      (tendsto_pi_nhds.1 ((tendsto_pi_nhds.1 hS) k)) l
    refine (Complex.continuous_exp.tendsto _).comp (Tendsto.sub (Tendsto.mul_const _ ?_) (Tendsto.div_const ?_ _))
    · exact (Complex.continuous_ofReal.tendsto _).comp
        (tendsto_finsetSum _ fun k _ => (hmk k).const_mul _)
    · exact (Complex.continuous_ofReal.tendsto _).comp
        (tendsto_finsetSum _ fun k _ => tendsto_finsetSum _ fun l _ => (hSk k l).const_mul _)
  have hf := (ProbabilityMeasure.tendsto_iff_forall_integral_tendsto.1 hw)
    (f.compContinuous ⟨WithLp.ofLp, by fun_prop⟩)
  have g1 : ∀ n, ∫ x, (f.compContinuous ⟨WithLp.ofLp, by fun_prop⟩ : BoundedContinuousFunction (EuclideanSpace ℝ ι) ℝ) x
      ∂(μ n : Measure (EuclideanSpace ℝ ι)) = ∫ ω, f (X n ω) ∂P := fun n => by
    change ∫ x, _ ∂(P.map fun ω => WithLp.toLp 2 (X n ω)) = _
    have := mX n
    rw [integral_map (by fun_prop) (BoundedContinuousFunction.continuous _).aestronglyMeasurable]
    rfl
  have g2 : ∫ x, (f.compContinuous ⟨WithLp.ofLp, by fun_prop⟩ : BoundedContinuousFunction (EuclideanSpace ℝ ι) ℝ) x
      ∂(ν : Measure (EuclideanSpace ℝ ι)) = ∫ ω, f (Y ω) ∂P' := by
    change ∫ x, _ ∂(P'.map fun ω => WithLp.toLp 2 (Y ω)) = _
    rw [integral_map (by fun_prop) (BoundedContinuousFunction.continuous _).aestronglyMeasurable]
    rfl
  simpa only [g1, g2] using hf

theorem LinRun.limit (h : LinRun P A C T b X W) (hm : b + A.mulVec m = m) (hst : A * S * Aᵀ + C * T * Cᵀ = S)
    (h0 : Normal P (X 0) m0 S0) (hA : Tendsto (fun n => A ^ n) atTop (𝓝 0))
    {Ω' : Type} {mΩ' : MeasurableSpace Ω'} {P' : Measure Ω'} {Y : Ω' → ι → ℝ} (hY : Normal P' Y m S)
    (f : BoundedContinuousFunction (ι → ℝ) ℝ) :
    Tendsto (fun n => ∫ ω, f (X n ω) ∂P) atTop (𝓝 (∫ ω, f (Y ω) ∂P')) := by
  refine Normal.tendsto (fun n => h.law hm hst h0 n) hY ?_ ?_ f
  · have : Tendsto (fun n => m + (A ^ n).mulVec (m0 - m)) atTop
        (𝓝 (m + (0 : Matrix ι ι ℝ).mulVec (m0 - m))) :=
      ((by fun_prop : Continuous fun B : Matrix ι ι ℝ => m + B.mulVec (m0 - m)).tendsto 0).comp hA
    simpa using this
  · have : Tendsto (fun n => S + A ^ n * (S0 - S) * (A ^ n)ᵀ) atTop
        (𝓝 (S + 0 * (S0 - S) * (0 : Matrix ι ι ℝ)ᵀ)) :=
      ((by fun_prop : Continuous fun B : Matrix ι ι ℝ => S + B * (S0 - S) * Bᵀ).tendsto 0).comp hA
    simpa using this

end Run

end ZhuSuan.Sgmcmc
