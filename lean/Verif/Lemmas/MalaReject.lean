import Mathlib.Analysis.Calculus.Rademacher
import Verif.Lemmas.Mala

/-!
# How much a rejection moves the Langevin step

With step `h²` the mean squared displacement by rejections is `o(h⁴)`.
-/

set_option autoImplicit false

open MeasureTheory ProbabilityTheory Filter Topology Set
open ZhuSuan.Sgmcmc

namespace ZhuSuan.SgWeak

variable {V : Type} {I : V → Type} [Fintype V] [∀ v, Fintype (I v)] {l : Lat I → ℝ} {m L : ℝ}

/-- The error of the trapezoidal rule along the step. -/
noncomputable def trap (l : Lat I → ℝ) (h : ℝ) (y p : Lat I) : ℝ :=
  l (y + h • p) - l y - h / 2 * dot (pd l y + pd l (y + h • p)) p

theorem ham_change (h : ℝ) (y z : Lat I) : ham l (flow l h (y, z)) - ham l (y, z) =
    -trap l h y (half l h y z) + h ^ 2 / 8 * (nsq (pd l (prop l h y z)) - nsq (pd l y)) := by
  have e1 : nsq (half l h y z + (h / 2) • pd l (prop l h y z)) = nsq (half l h y z) +
      h * dot (pd l (prop l h y z)) (half l h y z) + h ^ 2 / 4 * nsq (pd l (prop l h y z)) := by
    rw [nsq_add, dot_smul_right, nsq_smul, dot_comm]
    ring
  have e2 : nsq z = nsq (half l h y z) - h * dot (pd l y) (half l h y z) + h ^ 2 / 4 * nsq (pd l y) := by
    have : z = half l h y z - (h / 2) • pd l y := by rw [half]; abel
    rw [this, nsq_sub, dot_smul_right, nsq_smul, ← this, dot_comm]
    ring
  have e3 : prop l h y z = y + h • half l h y z := rfl
  simp only [ham, flow, gl_eq, nsq_neg]
  rw [e1, e2, trap, dot_add_left, ← e3]
  ring

theorem reject_le (h : ℝ) (s : Lat I × Lat I) : 1 - acc l h s ≤ |ham l (flow l h s) - ham l s| := by
  have h1 := Real.add_one_le_exp (min (ham l s - ham l (flow l h s)) 0)
  have h2 : -|ham l (flow l h s) - ham l s| ≤ min (ham l s - ham l (flow l h s)) 0 := by
    refine le_min ?_ (neg_nonpos.2 (abs_nonneg _))
    linarith [le_abs_self (ham l (flow l h s) - ham l s)]
  rw [acc]
  linarith

namespace StrongConcave

variable (hl : StrongConcave l m L)
include hl

theorem lip_dot (a b p : Lat I) : |dot (pd l a - pd l b) p| ≤ |L| * √(nsq (a - b)) * √(nsq p) := by
  refine (abs_dot_le _ _).trans (mul_le_mul_of_nonneg_right ?_ (Real.sqrt_nonneg _))
  rw [← Real.sqrt_sq_eq_abs, ← Real.sqrt_mul (sq_nonneg _)]
  exact Real.sqrt_le_sqrt (hl.lip a b)

theorem trap_le {h : ℝ} (hh : 0 < h) (y p : Lat I) : |trap l h y p| ≤ h ^ 2 * |L| * nsq p := by
  obtain ⟨s, hs, he⟩ := exists_hasDerivAt_eq_slope (fun t : ℝ => l (y + t • p)) (fun t => dot (pd l (y + t • p)) p) hh
    (fun t _ => (hl.line y p t).continuousAt.continuousWithinAt) fun t _ => hl.line y p t
  have hp := nsq_nonneg p
  have key : ∀ a b : ℝ, |a - b| ≤ h → |dot (pd l (y + a • p) - pd l (y + b • p)) p| ≤ |L| * h * nsq p := by
    intro a b hab
    refine (hl.lip_dot _ _ p).trans ?_
    have e : y + a • p - (y + b • p) = (a - b) • p := by rw [sub_smul]; abel
    rw [e, nsq_smul, Real.sqrt_mul (sq_nonneg _), Real.sqrt_sq_eq_abs, mul_assoc, mul_assoc, mul_assoc, Real.mul_self_sqrt hp]
    exact mul_le_mul_of_nonneg_left (mul_le_mul_of_nonneg_right hab hp) (abs_nonneg _)
  have k1 := key s 0 (by rw [sub_zero, abs_of_pos hs.1]; exact hs.2.le)
  have k2 := key s h (by rw [abs_sub_comm, abs_of_pos (by linarith [hs.2])]; linarith [hs.1])
  rw [zero_smul, add_zero] at k1
  rw [sub_zero, zero_smul, add_zero, eq_div_iff hh.ne'] at he
  have e : trap l h y p = h / 2 * (dot (pd l (y + s • p) - pd l y) p + dot (pd l (y + s • p) - pd l (y + h • p)) p) := by
    rw [trap, ← he, dot_sub_left, dot_sub_left, dot_add_left]
    ring
  rw [e, abs_mul, abs_of_pos (by positivity : 0 < h / 2)]
  have := (abs_add_le (dot (pd l (y + s • p) - pd l y) p) (dot (pd l (y + s • p) - pd l (y + h • p)) p)).trans (add_le_add k1 k2)
  calc _ ≤ h / 2 * (|L| * h * nsq p + |L| * h * nsq p) := mul_le_mul_of_nonneg_left this (by positivity)
    _ = _ := by ring

/-- Where the gradient is differentiable the error is smaller. -/
theorem trap_small {y : Lat I} {B : Lat I →L[ℝ] Lat I} {ε δ h : ℝ} (hε : 0 ≤ ε) (hh : 0 < h) {p : Lat I}
    (hB : ∀ w : Lat I, ‖w‖ ≤ δ → ‖pd l (y + w) - pd l y - B w‖ ≤ ε * ‖w‖) (hp : h * ‖p‖ ≤ δ) :
    |trap l h y p| ≤ h ^ 2 * (2 * dim I * ε * ‖p‖ ^ 2) := by
  set F : ℝ → ℝ := fun t => l (y + t • p) - t * dot (pd l y) p - t ^ 2 * (dot (B p) p / 2) with hF
  have hd : ∀ t, HasDerivAt F (dot (pd l (y + t • p) - pd l y - B (t • p)) p) t := by
    intro t
    have h1 : HasDerivAt (fun t : ℝ => t * dot (pd l y) p) (dot (pd l y) p) t := by
      simpa using (hasDerivAt_id t).mul_const (dot (pd l y) p)
    have h2 : HasDerivAt (fun t : ℝ => t ^ 2 * (dot (B p) p / 2)) (2 * t * (dot (B p) p / 2)) t := by
      simpa using (hasDerivAt_pow 2 t).mul_const (dot (B p) p / 2)
    refine (((hl.line y p t).sub h1).sub h2).congr_deriv ?_
    rw [dot_sub_left, dot_sub_left, map_smul, dot_smul_left]
    ring
  have hsm : ∀ t : ℝ, 0 < t → t ≤ h → |dot (pd l (y + t • p) - pd l y - B (t • p)) p| ≤ h * (dim I * ε * ‖p‖ ^ 2) := by
    intro t ht hth
    have hn : ‖t • p‖ = t * ‖p‖ := by rw [norm_smul, Real.norm_of_nonneg ht.le]
    have h1 := hB (t • p) (by rw [hn]; exact (mul_le_mul_of_nonneg_right hth (norm_nonneg _)).trans hp)
    rw [hn] at h1
    refine (abs_dot_le _ _).trans ?_
    have hD := dim_nonneg (I := I)
    have h2 : ∀ w : Lat I, √(nsq w) ≤ √(dim I) * ‖w‖ := fun w => by
      rw [← Real.sqrt_sq (norm_nonneg w), ← Real.sqrt_mul hD]
      exact Real.sqrt_le_sqrt (nsq_le_norm w)
    calc _ ≤ (√(dim I) * (ε * (t * ‖p‖))) * (√(dim I) * ‖p‖) :=
          mul_le_mul ((h2 _).trans (mul_le_mul_of_nonneg_left h1 (Real.sqrt_nonneg _))) (h2 _) (Real.sqrt_nonneg _) (by positivity)
      _ = (√(dim I) * √(dim I)) * ε * ‖p‖ ^ 2 * t := by ring
      _ = dim I * ε * ‖p‖ ^ 2 * t := by rw [Real.mul_self_sqrt hD]
      _ ≤ dim I * ε * ‖p‖ ^ 2 * h := mul_le_mul_of_nonneg_left hth (by positivity)
      _ = _ := by ring
  obtain ⟨s, hs, he⟩ := exists_hasDerivAt_eq_slope F _ hh (fun t _ => (hd t).continuousAt.continuousWithinAt) fun t _ => hd t
  rw [sub_zero, eq_div_iff hh.ne'] at he
  have k1 := hsm s hs.1 hs.2.le
  have k2 := hsm h hh le_rfl
  have e : trap l h y p = dot (pd l (y + s • p) - pd l y - B (s • p)) p * h -
      h / 2 * dot (pd l (y + h • p) - pd l y - B (h • p)) p := by
    rw [he, trap]
    simp only [hF, zero_smul, add_zero, zero_mul, sub_zero, ne_eq, OfNat.ofNat_ne_zero, not_false_eq_true, zero_pow]
    rw [dot_sub_left, dot_sub_left, map_smul, dot_smul_left, dot_add_left]
    ring
  have hD := dim_nonneg (I := I)
  have hK : 0 ≤ dim I * ε * ‖p‖ ^ 2 := by positivity
  rw [e]
  refine (abs_sub _ _).trans ?_
  rw [abs_mul, abs_mul, abs_of_pos hh, abs_of_pos (by positivity : 0 < h / 2)]
  calc _ ≤ (h * (dim I * ε * ‖p‖ ^ 2)) * h + h / 2 * (h * (dim I * ε * ‖p‖ ^ 2)) :=
        add_le_add (mul_le_mul_of_nonneg_right k1 hh.le) (mul_le_mul_of_nonneg_left k2 (by positivity))
    _ ≤ _ := by nlinarith [mul_nonneg (sq_nonneg h) hK]

theorem half_le {h : ℝ} (h0 : 0 < h) (h1 : h ≤ 1) (y z : Lat I) :
    nsq (half l h y z) ≤ (2 + nsq (pd l 0) + L ^ 2) * (1 + nsq y + nsq z) := by
  have a := nsq_add_le z ((h / 2) • pd l y)
  rw [nsq_smul] at a
  have b := hl.grad_le y
  have c : (h / 2) ^ 2 * nsq (pd l y) ≤ 1 / 4 * nsq (pd l y) :=
    mul_le_mul_of_nonneg_right (by nlinarith) (nsq_nonneg _)
  have d1 := nsq_nonneg y
  have d2 := nsq_nonneg z
  have d3 := nsq_nonneg (pd l 0)
  have d4 := sq_nonneg L
  unfold half
  nlinarith [mul_nonneg d3 d1, mul_nonneg d3 d2, mul_nonneg d4 d2]

/-- The size of the change of the energy. -/
theorem change_le : ∃ C : ℝ, 0 ≤ C ∧ ∀ h : ℝ, 0 < h → h ≤ 1 → ∀ y z : Lat I,
    |ham l (flow l h (y, z)) - ham l (y, z)| ≤ h ^ 2 * (C * (1 + nsq y + nsq z)) := by
  set c1 : ℝ := 2 + nsq (pd l 0) + L ^ 2 with hc1
  have d3 := nsq_nonneg (pd l 0)
  have d4 := sq_nonneg L
  have hc10 : 0 ≤ c1 := by positivity
  refine ⟨|L| * c1 + 1 / 8 * (4 * nsq (pd l 0) + 2 * L ^ 2 * (3 + 2 * c1)), by positivity, fun h h0 h1 y z => ?_⟩
  rw [ham_change]
  have d1 := nsq_nonneg y
  have d2 := nsq_nonneg z
  set N := 1 + nsq y + nsq z with hN
  have hh := hl.half_le h0 h1 y z
  have ht := hl.trap_le h0 y (half l h y z)
  have hp0 := nsq_nonneg (half l h y z)
  have e1 : nsq (prop l h y z) ≤ 2 * nsq y + 2 * nsq (half l h y z) := by
    refine (nsq_add_le _ _).trans ?_
    rw [nsq_smul]
    have : h ^ 2 * nsq (half l h y z) ≤ 1 * nsq (half l h y z) := mul_le_mul_of_nonneg_right (by nlinarith) hp0
    linarith
  have g1 := hl.grad_le (prop l h y z)
  have g2 := hl.grad_le y
  have n1 := nsq_nonneg (pd l (prop l h y z))
  have n2 := nsq_nonneg (pd l y)
  have a1 : |nsq (pd l (prop l h y z)) - nsq (pd l y)| ≤ (4 * nsq (pd l 0) + 2 * L ^ 2 * (3 + 2 * c1)) * N := by
    have h3 : |nsq (pd l (prop l h y z)) - nsq (pd l y)| ≤ nsq (pd l (prop l h y z)) + nsq (pd l y) :=
      abs_le.2 ⟨by linarith, by linarith⟩
    have h4 : nsq (prop l h y z) + nsq y ≤ (3 + 2 * c1) * N := by nlinarith
    have h5 : 2 * L ^ 2 * (nsq (prop l h y z) + nsq y) ≤ 2 * L ^ 2 * ((3 + 2 * c1) * N) :=
      mul_le_mul_of_nonneg_left h4 (by positivity)
    nlinarith [mul_nonneg d3 d1, mul_nonneg d3 d2]
  refine (abs_add_le _ _).trans ?_
  rw [abs_neg, abs_mul, abs_of_nonneg (by positivity : 0 ≤ h ^ 2 / 8)]
  have a2 : h ^ 2 * |L| * nsq (half l h y z) ≤ h ^ 2 * |L| * (c1 * N) := mul_le_mul_of_nonneg_left hh (by positivity)
  have a3 := mul_le_mul_of_nonneg_left a1 (by positivity : 0 ≤ h ^ 2 / 8)
  nlinarith

theorem lipschitz : LipschitzWith (|L| * √(dim I)).toNNReal (pd l) := by
  refine LipschitzWith.of_dist_le_mul fun x y => ?_
  rw [dist_eq_norm, dist_eq_norm, Real.coe_toNNReal _ (by positivity)]
  refine (norm_le_sqrt _).trans ?_
  have h := (hl.lip x y).trans (mul_le_mul_of_nonneg_left (nsq_le_norm (x - y)) (sq_nonneg L))
  refine (Real.sqrt_le_sqrt h).trans (le_of_eq ?_)
  rw [Real.sqrt_mul (sq_nonneg _), Real.sqrt_mul dim_nonneg, Real.sqrt_sq_eq_abs, Real.sqrt_sq (norm_nonneg _)]
  ring

omit hl in
theorem half_tendsto (y z : Lat I) : Tendsto (fun h : ℝ => half l h y z) (𝓝[>] 0) (𝓝 z) := by
  have : Continuous fun h : ℝ => half l h y z := by
    unfold half
    fun_prop
  have h := (this.tendsto 0).mono_left (nhdsWithin_le_nhds (s := Ioi 0))
  simpa [half] using h

/-- Where the gradient is differentiable, the change of the energy is of smaller order than the step. -/
theorem change_small {y : Lat I} (hy : DifferentiableAt ℝ (pd l) y) (z : Lat I) :
    Tendsto (fun h : ℝ => |ham l (flow l h (y, z)) - ham l (y, z)| / h ^ 2) (𝓝[>] 0) (𝓝 0) := by
  have ht := half_tendsto (l := l) y z
  have hpos : ∀ᶠ h : ℝ in 𝓝[>] 0, 0 < h := self_mem_nhdsWithin
  have h0 : Tendsto (fun h : ℝ => h) (𝓝[>] 0) (𝓝 0) := tendsto_id.mono_left nhdsWithin_le_nhds
  -- the kinetic part
  have k1 : Tendsto (fun h : ℝ => 1 / 8 * |nsq (pd l (prop l h y z)) - nsq (pd l y)|) (𝓝[>] 0) (𝓝 0) := by
    have a : Tendsto (fun h : ℝ => prop l h y z) (𝓝[>] 0) (𝓝 y) := by
      have := (h0.smul ht).const_add y
      simpa [prop] using this
    have b := ((continuous_nsq.comp hl.grad_cont).tendsto y).comp a
    have c := ((b.sub_const (nsq (pd l y))).abs).const_mul (1 / 8)
    simpa using c
  -- the potential part
  have k2 : Tendsto (fun h : ℝ => |trap l h y (half l h y z)| / h ^ 2) (𝓝[>] 0) (𝓝 0) := by
    have hD := dim_nonneg (I := I)
    rw [Metric.tendsto_nhds]
    intro ε hε
    set K : ℝ := 2 * dim I * (‖z‖ + 1) ^ 2 with hK
    have hK0 : 0 ≤ K := by positivity
    set η : ℝ := ε / (K + 1) with hη
    have hη0 : 0 < η := by positivity
    have hB := (hy.hasFDerivAt.isLittleO).def hη0
    rw [Metric.eventually_nhds_iff] at hB
    obtain ⟨δ, hδ, hB⟩ := hB
    have hBw : ∀ w : Lat I, ‖w‖ ≤ δ / 2 → ‖pd l (y + w) - pd l y - fderiv ℝ (pd l) y w‖ ≤ η * ‖w‖ := by
      intro w hw
      have := hB (y := y + w) (by rw [dist_eq_norm, add_sub_cancel_left]; linarith)
      simpa using this
    have n1 : ∀ᶠ h : ℝ in 𝓝[>] 0, ‖half l h y z‖ ≤ ‖z‖ + 1 :=
      (ht.norm.eventually (Iio_mem_nhds (lt_add_one ‖z‖))).mono fun h hh => le_of_lt hh
    have n2 : ∀ᶠ h : ℝ in 𝓝[>] 0, h * ‖half l h y z‖ ≤ δ / 2 := by
      have := h0.mul ht.norm
      rw [zero_mul] at this
      exact (this.eventually (Iio_mem_nhds (half_pos hδ))).mono fun h hh => le_of_lt hh
    filter_upwards [hpos, n1, n2] with h hh h1 h2
    have h3 := hl.trap_small hη0.le hh hBw h2
    have hsq : 0 < h ^ 2 := by positivity
    rw [Real.dist_eq, sub_zero, abs_of_nonneg (by positivity)]
    have h4 : |trap l h y (half l h y z)| / h ^ 2 ≤ 2 * dim I * η * ‖half l h y z‖ ^ 2 := by
      rw [div_le_iff₀ hsq]
      linarith
    have h5 : 2 * dim I * η * ‖half l h y z‖ ^ 2 ≤ 2 * dim I * η * (‖z‖ + 1) ^ 2 :=
      mul_le_mul_of_nonneg_left (pow_le_pow_left₀ (norm_nonneg _) h1 2) (by positivity)
    have h6 : 2 * dim I * η * (‖z‖ + 1) ^ 2 = K * η := by rw [hK]; ring
    have h7 : K * η < ε := by
      rw [hη, mul_div_assoc', div_lt_iff₀ (by positivity)]
      nlinarith
    linarith
  refine squeeze_zero' (Eventually.of_forall fun h => by positivity) ?_ (by simpa using k2.add k1)
  filter_upwards [hpos] with h hh
  have hsq : 0 < h ^ 2 := by positivity
  rw [ham_change, div_le_iff₀ hsq, add_mul, div_mul_cancel₀ _ hsq.ne']
  refine (abs_add_le _ _).trans ?_
  rw [abs_neg, abs_mul, abs_of_nonneg (by positivity : 0 ≤ h ^ 2 / 8)]
  linarith

/-- The mean squared displacement by rejections. -/
theorem reject_small : Tendsto (fun h : ℝ => ∫ s : Lat I × Lat I, (1 - acc l h s) / h ^ 2 * nsq (half l h s.1 s.2)
    ∂(posterior l).prod (normals I)) (𝓝[>] 0) (𝓝 0) := by
  have _ := hl.dens.prob
  obtain ⟨C, hC0, hC⟩ := hl.change_le
  set c1 : ℝ := 2 + nsq (pd l 0) + L ^ 2 with hc1
  have hc10 : 0 ≤ c1 := by
    have d3 := nsq_nonneg (pd l 0)
    positivity
  have hpos : ∀ᶠ h : ℝ in 𝓝[>] 0, 0 < h := self_mem_nhdsWithin
  have hone : ∀ᶠ h : ℝ in 𝓝[>] 0, h ≤ 1 :=
    mem_nhdsWithin_of_mem_nhds (Iic_mem_nhds zero_lt_one)
  have hg := hl.grad_cont
  have hq : Integrable (fun s : Lat I × Lat I => C * c1 * (2 * quart s.1 + 2 * quart s.2)) ((posterior l).prod (normals I)) := by
    have a1 : Integrable (fun s : Lat I × Lat I => quart s.1) ((posterior l).prod (normals I)) := hl.quart_post.comp_fst _
    have a2 : Integrable (fun s : Lat I × Lat I => quart s.2) ((posterior l).prod (normals I)) := quart_normals.comp_snd _
    exact ((a1.const_mul 2).add (a2.const_mul 2)).const_mul _
  have key := tendsto_integral_filter_of_dominated_convergence (μ := (posterior l).prod (normals I)) (l := 𝓝[>] (0 : ℝ))
    (F := fun h s => (1 - acc l h s) / h ^ 2 * nsq (half l h s.1 s.2)) (f := fun _ => (0 : ℝ))
    (fun s : Lat I × Lat I => C * c1 * (2 * quart s.1 + 2 * quart s.2)) ?_ ?_ hq ?_
  · simpa using key
  · refine Eventually.of_forall fun h => Continuous.aestronglyMeasurable ?_
    exact ((continuous_const.sub (acc_cont h hg hl.smooth.continuous)).div_const _).mul (continuous_nsq.comp (half_cont h hg))
  · filter_upwards [hpos, hone] with h h0 h1
    refine Eventually.of_forall fun s => ?_
    have a1 := (reject_le (l := l) h s).trans (hC h h0 h1 s.1 s.2)
    have a2 := hl.half_le h0 h1 s.1 s.2
    have a3 := nsq_nonneg (half l h s.1 s.2)
    have a4 := acc_le (l := l) h s
    have d1 := nsq_nonneg s.1
    have d2 := nsq_nonneg s.2
    have hsq : 0 < h ^ 2 := by positivity
    have a5 : (1 - acc l h s) / h ^ 2 ≤ C * (1 + nsq s.1 + nsq s.2) := by
      rw [div_le_iff₀ hsq]
      linarith
    have a6 : 0 ≤ (1 - acc l h s) / h ^ 2 := div_nonneg (by linarith) hsq.le
    rw [Real.norm_of_nonneg (mul_nonneg a6 a3)]
    calc _ ≤ (C * (1 + nsq s.1 + nsq s.2)) * (c1 * (1 + nsq s.1 + nsq s.2)) := mul_le_mul a5 a2 a3 (by positivity)
      _ = C * c1 * (1 + nsq s.1 + nsq s.2) ^ 2 := by ring
      _ ≤ _ := by
        refine mul_le_mul_of_nonneg_left ?_ (by positivity)
        unfold quart
        nlinarith [sq_nonneg (nsq s.1 - nsq s.2)]
  · have hd : ∀ᵐ y ∂posterior l, DifferentiableAt ℝ (pd l) y := by
      have h1 : ∀ᵐ y ∂(volume : Measure (Lat I)), DifferentiableAt ℝ (pd l) y := hl.lipschitz.ae_differentiableAt
      exact (withDensity_absolutelyContinuous _ _).ae_le h1
    have hd2 : ∀ᵐ s ∂(posterior l).prod (normals I), DifferentiableAt ℝ (pd l) s.1 :=
      Measure.quasiMeasurePreserving_fst.ae hd
    filter_upwards [hd2] with s hs
    have b1 := hl.change_small hs s.2
    have b2 := (continuous_nsq.tendsto s.2).comp (half_tendsto (l := l) s.1 s.2)
    have b3 := b1.mul b2
    rw [zero_mul] at b3
    refine squeeze_zero' ?_ ?_ b3
    · exact Eventually.of_forall fun h => mul_nonneg (div_nonneg (by linarith [acc_le (l := l) h s]) (sq_nonneg h)) (nsq_nonneg _)
    · refine Eventually.of_forall fun h => mul_le_mul_of_nonneg_right ?_ (nsq_nonneg _)
      exact div_le_div_of_nonneg_right (reject_le h s) (sq_nonneg h)

end StrongConcave

end ZhuSuan.SgWeak
