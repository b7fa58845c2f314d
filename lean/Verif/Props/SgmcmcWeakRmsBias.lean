import Verif.Props.SgmcmcWeakRms
import Verif.Props.SgmcmcWeakCases

/-!
# C91: PSGLD does not target the posterior

One latent variable with one component, a standard normal posterior, exact gradients, and running means of squares at the value
they converge to.
-/

set_option autoImplicit false

open MeasureTheory ProbabilityTheory Filter Topology Set
open ZhuSuan.SgWeak ZhuSuan.Weak

namespace ZhuSuan.Sgmcmc

/-- One latent variable with one component. -/
abbrev One : Unit → Type := fun _ => Unit

/-- Its value. -/
noncomputable def coord : Lat One →L[ℝ] ℝ :=
  (ContinuousLinearMap.proj ()).comp (ContinuousLinearMap.proj (R := ℝ) (φ := fun v => One v → ℝ) ())

theorem coord_apply (x : Lat One) : coord x = x () () := rfl

theorem coord_unit : coord (unit () ()) = 1 := by
  rw [coord_apply, unit]
  simp

theorem coord_supp {u : ℝ → ℝ} (hu : HasCompactSupport u) : HasCompactSupport fun x => u (coord x) :=
  hu.comp_homeomorph ((Homeomorph.funUnique Unit (Unit → ℝ)).trans (Homeomorph.funUnique Unit ℝ))

theorem coord_deriv {u : ℝ → ℝ} (hu : Differentiable ℝ u) (x : Lat One) :
    fderiv ℝ (fun x => u (coord x)) x (unit () ()) = deriv u (coord x) := by
  have h := ((hu (coord x)).hasDerivAt.comp_hasFDerivAt x coord.hasFDerivAt).fderiv
  have h' : fderiv ℝ (fun x => u (coord x)) x = _ := h
  rw [h']
  simp [coord_unit]

/-- Integration by parts for the standard normal distribution. -/
theorem coord_parts {u : ℝ → ℝ} (hu : ContDiff ℝ 1 u) (hc : HasCompactSupport u) :
    ∫ x, deriv u (coord x) ∂posterior (gl (I := One)) = ∫ x, coord x * u (coord x) ∂posterior (gl (I := One)) := by
  have h := (gl_dens (I := One)).parts (hu.comp coord.contDiff) (coord_supp hc) (unit () ())
  have e : ∀ x, fderiv ℝ (u ∘ coord) x (unit () ()) = deriv u (coord x) := coord_deriv (hu.differentiable (by norm_num))
  simp only [e, gl_deriv] at h
  rw [h, ← integral_neg]
  refine integral_congr_ae (Eventually.of_forall fun x => ?_)
  simp only [coord_apply, Function.comp]
  ring

/-- A smooth function that vanishes below 1, divided by powers of `ε + t`. -/
theorem over_smooth {ε : ℝ} (hε : 0 < ε) {c : ℝ → ℝ} {n : ℕ} (hc : ContDiff ℝ n c) (h0 : ∀ t < 1, c t = 0) (k : ℕ) :
    ContDiff ℝ n fun t => ((ε + t)⁻¹) ^ k * c t := by
  rw [contDiff_iff_contDiffAt]
  intro t
  by_cases ht : t < 1
  · refine (contDiffAt_const (c := (0 : ℝ))).congr_of_eventuallyEq ?_
    filter_upwards [Iio_mem_nhds ht] with s hs
    rw [h0 s hs, mul_zero]
  · have : ε + t ≠ 0 := by linarith [not_lt.1 ht]
    exact (((contDiffAt_const.add contDiffAt_id).inv this).pow k).mul hc.contDiffAt

theorem over_deriv {ε : ℝ} (hε : 0 < ε) {c : ℝ → ℝ} (hc : Differentiable ℝ c) (h0 : ∀ t < 1, c t = 0) (k : ℕ) (t : ℝ) :
    deriv (fun t => ((ε + t)⁻¹) ^ k * c t) t = ((ε + t)⁻¹) ^ k * deriv c t - k * ((ε + t)⁻¹) ^ (k + 1) * c t := by
  by_cases ht : t < 1
  · have h1 : (fun t => ((ε + t)⁻¹) ^ k * c t) =ᶠ[𝓝 t] fun _ => 0 := by
      filter_upwards [Iio_mem_nhds ht] with s hs
      rw [h0 s hs, mul_zero]
    have h2 : c =ᶠ[𝓝 t] fun _ => 0 := by
      filter_upwards [Iio_mem_nhds ht] with s hs
      exact h0 s hs
    rw [h1.deriv_eq, h2.deriv_eq, h0 t ht]
    simp
  · have hne : ε + t ≠ 0 := by linarith [not_lt.1 ht]
    have h1 : HasDerivAt (fun t : ℝ => (ε + t)⁻¹) (-1 / (ε + t) ^ 2) t := ((hasDerivAt_id t).const_add ε).inv hne
    have h2 := ((h1.pow k).mul (hc t).hasDerivAt).deriv
    have h3 : deriv (fun t => ((ε + t)⁻¹) ^ k * c t) t = _ := h2
    rw [h3]
    rcases k with _ | k
    · simp
    · simp only [Nat.add_sub_cancel, Pi.pow_apply, inv_pow, Nat.cast_add, Nat.cast_one]
      field_simp
      ring

/-- A test function around 2. -/
noncomputable def bump : ContDiffBump (2 : ℝ) := ⟨1 / 2, 1, by norm_num, by norm_num⟩

theorem bump_zero (t : ℝ) (ht : t < 1) : bump t = 0 := by
  by_contra h
  have : t ∈ Function.support bump := h
  rw [bump.support_eq, Metric.mem_ball, Real.dist_eq, abs_lt] at this
  have e : bump.rOut = 1 := rfl
  rw [e] at this
  linarith [this.1]

theorem bump_deriv_zero (t : ℝ) (ht : t < 1) : deriv bump t = 0 := by
  have h2 : bump =ᶠ[𝓝 t] fun _ => 0 := by
    filter_upwards [Iio_mem_nhds ht] with s hs
    exact bump_zero s hs
  rw [h2.deriv_eq]
  simp

/-- PSGLD with the RMSprop preconditioner does not target the posterior: on a standard normal posterior, with exact gradients
and with the squares of the gradient for the running means, one iteration changes the mean of a test function by an amount of the
first order in the learning rate, for every decay and every epsilon. -/
theorem C91_psgld_biased (decay : ℝ) {ε : ℝ} (hε : 0 < ε) :
    ∃ f : Lat One → ℝ, ContDiff ℝ 3 f ∧ HasCompactSupport f ∧ ∃ c > 0,
      Tendsto (fun lr : ℝ => ((∫ s : Lat One × Lat One,
        f (fun v => (psgld lr decay ε (pd gl) s.2 v fun v => ⟨s.1 v, fun i => pd gl s.1 v i ^ 2⟩).q)
          ∂(posterior gl).prod (normals One)) - ∫ x, f x ∂posterior gl) / lr) (𝓝[>] 0) (𝓝 c) := by
  have _ := (gl_dens (I := One)).prob
  have sb : ContDiff ℝ 3 bump := bump.contDiff
  have sb1 : ContDiff ℝ 2 (deriv bump) := by
    have := (contDiff_succ_iff_deriv (n := 2) (f := bump)).1 (by exact_mod_cast bump.contDiff (n := 3))
    exact this.2.2
  have kb : HasCompactSupport bump := bump.hasCompactSupport
  refine ⟨fun x => bump (coord x), sb.comp coord.contDiff, coord_supp kb, ?_⟩
  have hpd : ∀ x : Lat One, pd gl x () () = - coord x := fun x => gl_deriv x () ()
  have key := C91_psgld_rate (posterior (gl (I := One))) (X := fun x => x) (A := fun x v i => pd gl x v i ^ 2)
    (G := fun _ => pd gl) (by fun_prop) (by
      refine Continuous.aestronglyMeasurable (continuous_pi fun v => continuous_pi fun i => ?_)
      simp only [pd, gl_deriv]
      fun_prop) (by
      have : (fun x : Lat One => pd gl x) = fun x => -x := by
        ext x v i
        exact gl_deriv x v i
      rw [this, ← normals_eq]
      exact ((id_memLp (I := One) 1).integrable (by simp)).neg) decay hε (sb.comp coord.contDiff) (coord_supp kb)
  refine ⟨_, ?_, key⟩
  have e1 : ∀ x, pd (fun x => bump (coord x)) x () () = deriv bump (coord x) := coord_deriv (sb.differentiable (by norm_num))
  have e2 : ∀ x, fderiv ℝ (fun x => pd (bump ∘ coord) x () ()) x (unit () ()) = deriv (deriv bump) (coord x) := by
    intro x
    have : (fun x => pd (bump ∘ coord) x () ()) = fun x => deriv bump (coord x) := funext e1
    rw [this]
    exact coord_deriv (sb1.differentiable (by norm_num)) x
  have z2 : ∀ t < 1, deriv (deriv bump) t = 0 := by
    intro t ht
    have h2 : deriv bump =ᶠ[𝓝 t] fun _ => 0 := by
      filter_upwards [Iio_mem_nhds ht] with s hs
      exact bump_deriv_zero s hs
    rw [h2.deriv_eq]
    simp
  have e3 : ∀ x : Lat One, ∑ v, ∑ i, 1 / (ε + √(decay * pd gl x v i ^ 2 + (1 - decay) * pd gl x v i ^ 2)) *
      (pd gl x v i * pd (bump ∘ coord) x v i + fderiv ℝ (fun x => pd (bump ∘ coord) x v i) x (unit v i)) =
      ((ε + coord x)⁻¹) ^ 1 * (deriv (deriv bump) (coord x)) - coord x * (((ε + coord x)⁻¹) ^ 1 * deriv bump (coord x)) := by
    intro x
    simp only [Finset.univ_unique, Finset.sum_singleton, PUnit.default_eq_unit]
    rw [e2, show pd (bump ∘ coord) x () () = deriv bump (coord x) from e1 x, hpd]
    by_cases ht : coord x < 1
    · rw [z2 _ ht, bump_deriv_zero _ ht]
      simp
    · have h0 : 0 ≤ coord x := by linarith [not_lt.1 ht]
      rw [show decay * (-coord x) ^ 2 + (1 - decay) * (-coord x) ^ 2 = coord x ^ 2 by ring, Real.sqrt_sq h0]
      field_simp
      ring
  simp only [e3]
  have kb1 : HasCompactSupport (deriv bump) := kb.deriv
  have s1 : ContDiff ℝ 1 fun t => ((ε + t)⁻¹) ^ 1 * deriv bump t := by
    exact_mod_cast over_smooth (n := 1) hε (by exact_mod_cast sb1.of_le (by norm_num)) bump_deriv_zero 1
  have s2 : ContDiff ℝ 1 fun t => ((ε + t)⁻¹) ^ 2 * bump t := by
    exact_mod_cast over_smooth (n := 1) hε (by exact_mod_cast sb.of_le (by norm_num)) bump_zero 2
  have c0 : ∀ k, Continuous fun t => ((ε + t)⁻¹) ^ k * bump t := fun k =>
    (over_smooth (n := 0) hε (by exact_mod_cast sb.of_le (by norm_num)) bump_zero k).continuous
  have c1 : ∀ k, Continuous fun t => ((ε + t)⁻¹) ^ k * deriv bump t := fun k =>
    (over_smooth (n := 0) hε (by exact_mod_cast sb1.of_le (by norm_num)) bump_deriv_zero k).continuous
  have c2 : ∀ k, Continuous fun t => ((ε + t)⁻¹) ^ k * deriv (deriv bump) t := fun k =>
    (over_smooth (n := 0) hε (by
      have := (contDiff_succ_iff_deriv (n := 1) (f := deriv bump)).1 (by exact_mod_cast sb1)
      exact_mod_cast this.2.2.of_le (by norm_num)) z2 k).continuous
  have int : ∀ {u : ℝ → ℝ}, Continuous u → HasCompactSupport u → Integrable (fun x => u (coord x)) (posterior (gl (I := One))) :=
    fun hu hs => (hu.comp coord.continuous).integrable_of_hasCompactSupport (coord_supp hs)
  have p1 := coord_parts s1 kb1.mul_left
  have p2 := coord_parts s2 kb.mul_left
  simp only [over_deriv hε (sb1.differentiable (by norm_num)) bump_deriv_zero, over_deriv hε (sb.differentiable (by norm_num)) bump_zero]
    at p1 p2
  have i2 := int (c2 1) kb1.deriv.mul_left
  have i1 := int (c1 2) kb1.mul_left
  have i0 := int (c0 3) kb.mul_left
  have it1 := int (continuous_id.mul (c1 1)) (HasCompactSupport.mul_left kb1.mul_left)
  have it2 := int (continuous_id.mul (c0 2)) (HasCompactSupport.mul_left kb.mul_left)
  have it1' : Integrable (fun x => coord x * ((ε + coord x)⁻¹ ^ 1 * deriv bump (coord x))) (posterior (gl (I := One))) := it1
  have it2' : Integrable (fun x => coord x * ((ε + coord x)⁻¹ ^ 2 * bump (coord x))) (posterior (gl (I := One))) := it2
  have i1' : Integrable (fun x => ((1 : ℕ) : ℝ) * (ε + coord x)⁻¹ ^ (1 + 1) * deriv bump (coord x)) (posterior (gl (I := One))) := by
    simpa using i1
  have i0' : Integrable (fun x => ((2 : ℕ) : ℝ) * (ε + coord x)⁻¹ ^ (2 + 1) * bump (coord x)) (posterior (gl (I := One))) := by
    have := i0.const_mul 2
    refine this.congr (Eventually.of_forall fun x => ?_)
    simp only [Nat.cast_ofNat]
    ring
  rw [integral_sub i2 i1'] at p1
  rw [integral_sub i1 i0'] at p2
  rw [integral_sub i2 it1']
  have q : ∫ x, ((1 : ℕ) : ℝ) * (ε + coord x)⁻¹ ^ (1 + 1) * deriv bump (coord x) ∂posterior (gl (I := One)) =
      ∫ x, (ε + coord x)⁻¹ ^ 2 * deriv bump (coord x) ∂posterior (gl (I := One)) := by simp
  have r : (∫ x, (ε + coord x)⁻¹ ^ 1 * deriv (deriv bump) (coord x) ∂posterior (gl (I := One))) -
      ∫ x, coord x * ((ε + coord x)⁻¹ ^ 1 * deriv bump (coord x)) ∂posterior (gl (I := One)) =
      ∫ x, (coord x * ((ε + coord x)⁻¹ ^ 2 * bump (coord x)) + ((2 : ℕ) : ℝ) * (ε + coord x)⁻¹ ^ (2 + 1) * bump (coord x))
        ∂posterior (gl (I := One)) := by
    rw [integral_add it2' i0']
    linarith
  rw [r]
  refine mul_pos (by norm_num) ?_
  rw [gl_dens.integral]
  refine div_pos ?_ gl_dens.norm_pos
  have c3 : Continuous fun t => t * ((ε + t)⁻¹ ^ 2 * bump t) + ((2 : ℕ) : ℝ) * (ε + t)⁻¹ ^ (2 + 1) * bump t := by
    have := (continuous_id.mul (c0 2)).add ((c0 3).const_mul 2)
    refine this.congr fun t => ?_
    simp only [id, Pi.mul_apply, Nat.cast_ofNat, Pi.add_apply]
    ring
  have k3 : HasCompactSupport fun t => t * ((ε + t)⁻¹ ^ 2 * bump t) + ((2 : ℕ) : ℝ) * (ε + t)⁻¹ ^ (2 + 1) * bump t :=
    (HasCompactSupport.mul_left kb.mul_left).add kb.mul_left
  refine Continuous.integral_pos_of_hasCompactSupport_nonneg_nonzero (x := fun _ _ => 2)
    ((c3.comp coord.continuous).mul (Real.continuous_exp.comp gl_smooth.continuous)) (coord_supp k3).mul_right ?_ ?_
  · intro x
    refine mul_nonneg ?_ (Real.exp_pos _).le
    by_cases ht : coord x < 1
    · simp [bump_zero _ ht]
    · have h0 : 0 ≤ coord x := by linarith [not_lt.1 ht]
      have := bump.nonneg (x := coord x)
      positivity
  · have hb : bump (coord fun _ _ => 2) = 1 := by
      refine bump.one_of_mem_closedBall ?_
      rw [coord_apply]
      exact Metric.mem_closedBall_self bump.rIn_pos.le
    refine (mul_pos ?_ (Real.exp_pos _)).ne'
    rw [hb, coord_apply]
    positivity

variable {V : Type} {I : V → Type} [Fintype V] [∀ v, Fintype (I v)]

/-- The running means of squares start at 0 and with decay 1 stay there. -/
example {f : Lat I → ℝ} (hf : ContDiff ℝ 3 f) (hc : HasCompactSupport f) :
    Tendsto (fun lr : ℝ => ((∫ s : ((Lat I × Lat I) × Lat I) × Lat I,
        f (fun v => (psgld lr 1 0.001 (noisy s.1.2) s.2 v fun v => ⟨s.1.1.1 v, s.1.1.2 v⟩).q)
          ∂(((posterior gl).prod (Measure.dirac 0)).prod (normals I)).prod (normals I)) - ∫ x, f x ∂posterior gl) / lr)
      (𝓝[>] 0) (𝓝 0) := by
  have _ := (gl_dens (I := I)).prob
  have h : MeasurePreserving (fun s : (Lat I × Lat I) × Lat I => (s.1.1, s.2))
      (((posterior (gl (I := I))).prod (Measure.dirac 0)).prod (normals I)) ((posterior (gl (I := I))).prod (normals I)) :=
    measurePreserving_fst.prod (MeasurePreserving.id _)
  exact C91_psgld_frozen_partial gl_dens (Measure.dirac 0) (normals I) noisy_unbiased (h.integrable_comp_of_integrable noisy_int)
    (by norm_num) hf hc

/-- A preconditioner that is a smooth function of the latent variables. -/
example {f : Lat I → ℝ} (hf : ContDiff ℝ 3 f) (hc : HasCompactSupport f) :
    Tendsto (fun lr : ℝ => ((∫ s : Lat I × Lat I,
        f (fun v => (psgld lr (1 / 2) 1 (pd gl) s.2 v fun v => ⟨s.1 v, fun _ => 1⟩).q) ∂(posterior gl).prod (normals I)) -
          ∫ x, f x ∂posterior gl) / lr) (𝓝[>] 0)
      (𝓝 (-(1 / 2) * ∫ x, ∑ v, ∑ i,
        fderiv ℝ (fun x : Lat I => 1 / (1 + √(1 / 2 * 1 + (1 - 1 / 2) * pd gl x v i ^ 2))) x (unit v i) * pd f x v i ∂posterior gl)) := by
  refine C91_psgld_divergence gl_dens ?_ (A := fun _ _ _ => 1) measurable_const (1 / 2) one_pos (fun v i => ?_) hf hc
  · have : (fun x : Lat I => pd gl x) = fun x => -x := by
      ext x v i
      exact gl_deriv x v i
    rw [this, ← normals_eq]
    exact ((id_memLp (I := I) 1).integrable (by simp)).neg
  · simp only [pd, gl_deriv]
    have h : ContDiff ℝ 1 fun x : Lat I => 1 / 2 * 1 + (1 - 1 / 2) * (-x v i) ^ 2 := by
      have h1 : ContDiff ℝ 1 fun x : Lat I => x v i :=
        ((ContinuousLinearMap.proj i).comp (ContinuousLinearMap.proj (R := ℝ) (φ := fun v => I v → ℝ) v)).contDiff
      exact contDiff_const.add (contDiff_const.mul (h1.neg.pow 2))
    refine contDiff_const.div (contDiff_const.add (h.sqrt fun x => ?_)) fun x => ?_ <;> positivity

end ZhuSuan.Sgmcmc
