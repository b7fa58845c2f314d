import Verif.Props.SgmcmcWeakNht2

/-!
# C90: a case

A model with a standard normal posterior, whose gradient estimates have independent standard normal errors.
-/

set_option autoImplicit false

open MeasureTheory ProbabilityTheory Filter Topology Set
open ZhuSuan.SgWeak ZhuSuan.Weak

namespace ZhuSuan.Sgmcmc

variable {V : Type} {I : V → Type} [Fintype V] [∀ v, Fintype (I v)]

/-- The gradient estimates: the gradient `-x` and an error. -/
def noisy (ω x : Lat I) : Lat I := ω - x

theorem noisy_unbiased : Unbiased (normals I) noisy (gl (I := I)) := by
  intro x v i
  have h : Integrable (fun ω : Lat I => ω v i) (normals I) := (comp_memLp v i 1).integrable (by simp)
  refine ⟨h.sub (integrable_const (x v i)), ?_⟩
  have := integral_sub h (integrable_const (x v i))
  unfold noisy
  rw [pd, gl_deriv]
  simp only [Pi.sub_apply]
  rw [this, comp_mean]
  simp

theorem noisy_measurable : Measurable fun s : Lat I × Lat I => noisy s.2 s.1 := measurable_snd.sub measurable_fst

theorem noisy_memLp (p : NNReal) :
    MemLp (fun s : Lat I × Lat I => noisy s.2 s.1) p ((posterior (gl (I := I))).prod (normals I)) := by
  rw [← normals_eq]
  exact ((id_memLp (I := I) p).comp_measurePreserving measurePreserving_snd).sub
    ((id_memLp (I := I) p).comp_measurePreserving measurePreserving_fst)

theorem noisy_lip (ω x y : Lat I) : ‖noisy ω x - noisy ω y‖ ≤ 1 * ‖x - y‖ := by
  unfold noisy
  rw [sub_sub_sub_cancel_left, one_mul, norm_sub_rev]

theorem noisy_int : Integrable (fun s : Lat I × Lat I => noisy s.2 s.1) ((posterior (gl (I := I))).prod (normals I)) := by
  have _ := (gl_dens (I := I)).prob
  exact (noisy_memLp 1).integrable le_rfl

example {f : Lat I → ℝ} (hf : ContDiff ℝ 3 f) (hc : HasCompactSupport f) :
    Tendsto (fun lr : ℝ => ((∫ s : Lat I × Lat I × Lat I, f (fun v => sgld lr (noisy s.2.1) s.2.2 v s.1)
        ∂(posterior gl).prod ((normals I).prod (normals I))) - ∫ x, f x ∂posterior gl) / lr) (𝓝[>] 0) (𝓝 0) :=
  C90_sgld gl_dens (normals I) noisy_unbiased noisy_int hf hc

example (now : V → Bool) {f : Lat I × Lat I → ℝ} (hf : ContDiff ℝ 3 f) (hc : HasCompactSupport f) :
    Tendsto (fun h : ℝ => ((∫ s : HDraws I (Lat I), f (hScaled h fun v =>
        sghmc1 (h ^ 2) (2 * h) 0 (noisy s.2.1) now s.1.2.2 s.2.2 v (hState h s.1.1 s.1.2.1)) ∂hDraws gl (normals I)) -
          ∫ x, f x ∂(posterior gl).prod (normals I)) / h) (𝓝[>] 0) (𝓝 0) :=
  C90_sghmc1 gl_dens (normals I) noisy_unbiased noisy_int now (by norm_num) hf hc

example (now : V → Bool) {f : Lat I × Lat I → ℝ} (hf : ContDiff ℝ 3 f) (hc : HasCompactSupport f) :
    Tendsto (fun h : ℝ => ((∫ s : HDraws I (Lat I), f (hScaled h fun v =>
        sghmc2 (h ^ 2) (2 * h) 0 (noisy s.2.1) now s.1.2.2 s.2.2 v (hState h s.1.1 s.1.2.1)) ∂hDraws gl (normals I)) -
          ∫ x, f x ∂(posterior gl).prod (normals I)) / h) (𝓝[>] 0) (𝓝 0) :=
  C90_sghmc2 gl_dens (normals I) noisy_unbiased noisy_measurable noisy_int noisy_lip now (by norm_num) hf hc

example (now : V → Bool) {f : (Lat I × Lat I) × Lat I → ℝ} (hf : ContDiff ℝ 3 f) (hc : HasCompactSupport f) :
    Tendsto (fun h : ℝ => ((∫ s : NDraws I I (Lat I), f (nScaled h fun v =>
        sgnht2 (h ^ 2) (2 * h) 3 true (noisy s.2.1) now s.1.1.2.2 s.2.2 v
          (nState h s.1.1.1 s.1.1.2.1 fun v i => 2 + √3 * s.1.2 v i)) ∂nDraws gl I (normals I)) -
        ∫ x : (Lat I × Lat I) × Lat I, f (x.1, fun v i => 2 + √3 * x.2 v i)
          ∂((posterior gl).prod (normals I)).prod (normals I)) / h) (𝓝[>] 0) (𝓝 0) :=
  C90_sgnht2 gl_dens (normals I) noisy_unbiased noisy_measurable (noisy_memLp 2) noisy_lip now (by norm_num) (by norm_num) hf hc

example [∀ v, Nonempty (I v)] (now : V → Bool) {f : (Lat I × Lat I) × Lat I → ℝ} (hf : ContDiff ℝ 3 f)
    (hc : HasCompactSupport f) :
    Tendsto (fun h : ℝ => ((∫ s : NDraws I (fun _ => Unit) (Lat I), f (nScaled h fun v =>
        sgnht1 (h ^ 2) (2 * h) 3 false (noisy s.2.1) now s.1.1.2.2 s.2.2 v
          (nState h s.1.1.1 s.1.1.2.1 fun v _ => 2 + √(3 / Fintype.card (I v)) * s.1.2 v ()))
            ∂nDraws gl (fun _ => Unit) (normals I)) -
        ∫ x : (Lat I × Lat I) × Lat fun _ : V => Unit, f (x.1, fun v _ => 2 + √(3 / Fintype.card (I v)) * x.2 v ())
          ∂((posterior gl).prod (normals I)).prod (normals fun _ => Unit)) / h) (𝓝[>] 0) (𝓝 0) :=
  C90_sgnht1_scalar gl_dens (normals I) noisy_unbiased (noisy_memLp 2) now (by norm_num) (by norm_num) hf hc

end ZhuSuan.Sgmcmc
