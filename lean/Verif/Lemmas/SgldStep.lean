import Verif.Lemmas.MalaReject

/-!
# One step of SGLD beside a step that preserves the posterior

Both use the same normal draw.  All bounds are on second moments.
-/

set_option autoImplicit false

open MeasureTheory ProbabilityTheory Filter Topology Set
open ZhuSuan.Sgmcmc

namespace ZhuSuan.SgWeak

section Int

variable {S S' : Type*} [MeasurableSpace S] [MeasurableSpace S'] {W : Measure S} {W' : Measure S'}

theorem mp_int {φ : S → S'} (hφ : MeasurePreserving φ W W') {f : S' → ℝ} (hf : AEStronglyMeasurable f W') :
    ∫ s, f (φ s) ∂W = ∫ s, f s ∂W' := by
  rw [← hφ.map_eq] at hf ⊢
  exact (integral_map hφ.measurable.aemeasurable hf).symm

theorem lint3 {A B C : Type*} [MeasurableSpace A] [MeasurableSpace B] [MeasurableSpace C] {μ : Measure A} {ν : Measure B}
    {τ : Measure C} [SFinite μ] [SFinite ν] [SFinite τ] {F : A × B × C → ENNReal} (hF : Measurable F) {K : A × B → ENNReal}
    (hK : Measurable K) (h : ∀ a b, ∫⁻ c, F (a, b, c) ∂τ = K (a, b)) :
    ∫⁻ s, F s ∂μ.prod (ν.prod τ) = ∫⁻ s, K s ∂μ.prod ν := by
  rw [lintegral_prod _ hF.aemeasurable, lintegral_prod _ hK.aemeasurable]
  refine lintegral_congr fun a => ?_
  rw [lintegral_prod (fun p : B × C => F (a, p)) (hF.comp measurable_prodMk_left).aemeasurable]
  exact lintegral_congr fun b => h a b

theorem int_le5 {f g1 g2 g3 g4 g5 : S → ℝ} (c1 c2 c3 c4 c5 : ℝ) (hf : Integrable f W) (h1 : Integrable g1 W)
    (h2 : Integrable g2 W) (h3 : Integrable g3 W) (h4 : Integrable g4 W) (h5 : Integrable g5 W)
    (h : ∀ s, f s ≤ c1 * g1 s + c2 * g2 s + c3 * g3 s + c4 * g4 s + c5 * g5 s) :
    ∫ s, f s ∂W ≤ c1 * (∫ s, g1 s ∂W) + c2 * (∫ s, g2 s ∂W) + c3 * (∫ s, g3 s ∂W) + c4 * (∫ s, g4 s ∂W) +
      c5 * ∫ s, g5 s ∂W := by
  have i12 : Integrable (fun s => c1 * g1 s + c2 * g2 s) W := (h1.const_mul c1).add (h2.const_mul c2)
  have i123 : Integrable (fun s => c1 * g1 s + c2 * g2 s + c3 * g3 s) W := i12.add (h3.const_mul c3)
  have i1234 : Integrable (fun s => c1 * g1 s + c2 * g2 s + c3 * g3 s + c4 * g4 s) W := i123.add (h4.const_mul c4)
  have i5 : Integrable (fun s => c1 * g1 s + c2 * g2 s + c3 * g3 s + c4 * g4 s + c5 * g5 s) W := i1234.add (h5.const_mul c5)
  refine (integral_mono hf i5 h).trans (le_of_eq ?_)
  rw [integral_add i1234 (h5.const_mul c5), integral_add i123 (h4.const_mul c4), integral_add i12 (h3.const_mul c3),
    integral_add (h1.const_mul c1) (h2.const_mul c2)]
  simp only [integral_const_mul]

end Int

variable {V : Type} {I : V → Type} [Fintype V] [∀ v, Fintype (I v)] {Ω : Type} [MeasurableSpace Ω]

/-- The displacement by rejections. -/
noncomputable def disp (l : Lat I → ℝ) (h : ℝ) (y z : Lat I) (u : ℝ) : Lat I := mala l h y z u - prop l h y z

/-- Its mean square, for the learning rate `lr`. -/
noncomputable def rho (l : Lat I → ℝ) (lr : ℝ) : ℝ :=
  ∫ s : Lat I × Lat I × ℝ, nsq (disp l (√lr) s.1 s.2.1 s.2.2) ∂(posterior l).prod ((normals I).prod Hmc.unif)

namespace StrongConcave

variable {l : Lat I → ℝ} {m L : ℝ} (hl : StrongConcave l m L)
include hl

theorem grad_memLp {S : Type*} [MeasurableSpace S] {W : Measure S} [IsFiniteMeasure W] {X : S → Lat I} (hX : MemLp X 2 W) :
    MemLp (fun s => pd l (X s)) 2 W :=
  memLp_of_nsq (hl.grad_cont.comp_aestronglyMeasurable hX.1)
    ((integrable_const (2 * nsq (pd l 0))).add ((nsq_int hX).const_mul (2 * L ^ 2))) fun s => hl.grad_le (X s)

theorem prop_memLp {S : Type*} [MeasurableSpace S] {W : Measure S} [IsFiniteMeasure W] {Y Z : S → Lat I} (hY : MemLp Y 2 W)
    (hZ : MemLp Z 2 W) (h : ℝ) : MemLp (fun s => prop l h (Y s) (Z s)) 2 W := by
  have := hY.add ((hZ.add ((hl.grad_memLp hY).const_smul (h / 2))).const_smul h)
  exact this

omit hl in
theorem disp_select (h : ℝ) (y z : Lat I) : ∫⁻ u, ENNReal.ofReal (nsq (disp l h y z u)) ∂Hmc.unif =
    ENNReal.ofReal ((1 - acc l h (y, z)) * nsq (h • half l h y z)) := by
  have := mala_select (l := l) h (fun w => ENNReal.ofReal (nsq (w - prop l h y z))) y z
  simp only [disp]
  rw [this, sub_self, nsq_zero, ENNReal.ofReal_zero, mul_zero, zero_add,
    ← ENNReal.ofReal_mul (by linarith [acc_le (l := l) h (y, z)]), nsq_sub_comm, prop, add_sub_cancel_left]

theorem disp_meas (h : ℝ) : Measurable fun s : Lat I × Lat I × ℝ => nsq (disp l h s.1 s.2.1 s.2.2) := by
  have e : Measurable fun s : Lat I × Lat I × ℝ => (s.1, s.2.1) := by fun_prop
  have e2 : Measurable fun s : Lat I × Lat I × ℝ => prop l h s.1 s.2.1 := (prop_cont h hl.grad_cont).measurable.comp e
  exact continuous_nsq.measurable.comp ((mala_meas h hl.grad_cont hl.smooth.continuous).sub e2)

theorem reject_cont (h : ℝ) : Continuous fun s : Lat I × Lat I => (1 - acc l h s) * nsq (h • half l h s.1 s.2) := by
  have h1 : Continuous fun s : Lat I × Lat I => h • half l h s.1 s.2 := (half_cont h hl.grad_cont).const_smul h
  exact (continuous_const.sub (acc_cont h hl.grad_cont hl.smooth.continuous)).mul (continuous_nsq.comp h1)

theorem disp_lint (h : ℝ) : ∫⁻ s : Lat I × Lat I × ℝ, ENNReal.ofReal (nsq (disp l h s.1 s.2.1 s.2.2))
      ∂(posterior l).prod ((normals I).prod Hmc.unif) =
      ∫⁻ s : Lat I × Lat I, ENNReal.ofReal ((1 - acc l h s) * nsq (h • half l h s.1 s.2)) ∂(posterior l).prod (normals I) := by
  have _ := hl.dens.prob
  exact lint3 (hl.disp_meas h).ennreal_ofReal (hl.reject_cont h).measurable.ennreal_ofReal fun y z => disp_select h y z

theorem rho_eq {lr : ℝ} (hlr : 0 < lr) : rho l lr =
    lr ^ 2 * ∫ s : Lat I × Lat I, (1 - acc l (√lr) s) / (√lr) ^ 2 * nsq (half l (√lr) s.1 s.2) ∂(posterior l).prod (normals I) := by
  have hsq : (√lr) ^ 2 = lr := Real.sq_sqrt hlr.le
  have mr := hl.reject_cont (√lr)
  have nn : ∀ s : Lat I × Lat I, 0 ≤ (1 - acc l (√lr) s) * nsq (√lr • half l (√lr) s.1 s.2) := fun s =>
    mul_nonneg (by linarith [acc_le (l := l) (√lr) s]) (nsq_nonneg _)
  rw [rho, integral_eq_lintegral_of_nonneg_ae (Eventually.of_forall fun s => nsq_nonneg _)
    (hl.disp_meas _).aestronglyMeasurable, hl.disp_lint,
    ← integral_eq_lintegral_of_nonneg_ae (Eventually.of_forall nn) mr.aestronglyMeasurable, ← integral_const_mul]
  refine integral_congr_ae (Eventually.of_forall fun s => ?_)
  simp only
  rw [nsq_smul, hsq]
  field_simp

theorem rho_small : Tendsto (fun lr : ℝ => rho l lr / lr ^ 2) (𝓝[>] 0) (𝓝 0) := by
  have hs : Tendsto (fun lr : ℝ => √lr) (𝓝[>] 0) (𝓝[>] 0) := by
    refine tendsto_nhdsWithin_iff.2 ⟨?_, ?_⟩
    · have := (Real.continuous_sqrt.tendsto 0).mono_left (nhdsWithin_le_nhds (s := Ioi 0))
      simpa using this
    · filter_upwards [self_mem_nhdsWithin] with lr h
      exact Real.sqrt_pos.2 h
  refine (hl.reject_small.comp hs).congr' ?_
  filter_upwards [self_mem_nhdsWithin] with lr h
  have h' : 0 < lr := h
  rw [hl.rho_eq h', mul_div_cancel_left₀ _ (by positivity)]
  rfl

end StrongConcave

theorem rho_nonneg (l : Lat I → ℝ) (lr : ℝ) : 0 ≤ rho l lr := integral_nonneg fun _ => nsq_nonneg _

/-- What the joint distribution of the two chains satisfies before a step: `X0` and `Y0` are the states at the start of the epoch,
`X` and `Y` the states now, `om` is the draw of the epoch, `Z` and `U` are the draws of the step. -/
structure Before {S : Type*} [MeasurableSpace S] (W : Measure S) (P : Measure Ω) (l : Lat I → ℝ) (G : Ω → Lat I → Lat I) (L : ℝ)
    (X0 Y0 X Y Z : S → Lat I) (om : S → Ω) (U : S → ℝ) : Prop where
  prob : IsProbabilityMeasure W
  memX0 : MemLp X0 2 W
  memX : MemLp X 2 W
  memY0 : MemLp Y0 2 W
  law : MeasurePreserving (fun s => (Y s, Z s, U s)) W ((posterior l).prod ((normals I).prod Hmc.unif))
  omL : MeasurePreserving om W P
  measG : Measurable fun a : Ω × Lat I => G a.1 a.2
  sq : Integrable (fun ω => nsq (G ω 0)) P
  lip : ∀ ω x y, nsq (G ω x - G ω y) ≤ L ^ 2 * nsq (x - y)
  cross : ∫ s, dot (X0 s - Y0 s) (G (om s) (X0 s) - pd l (X0 s)) ∂W = 0

namespace Before

variable {S : Type*} [MeasurableSpace S] {W : Measure S} {P : Measure Ω} {l : Lat I → ℝ} {G : Ω → Lat I → Lat I} {m L : ℝ}
  {X0 Y0 X Y Z : S → Lat I} {om : S → Ω} {U : S → ℝ} (hl : StrongConcave l m L) (hB : Before W P l G L X0 Y0 X Y Z om U)

include hB

theorem G_le (ω : Ω) (x : Lat I) : nsq (G ω x) ≤ 2 * nsq (G ω 0) + 2 * L ^ 2 * nsq x := by
  have h := nsq_add_le (G ω 0) (G ω x - G ω 0)
  rw [add_sub_cancel] at h
  have h2 := hB.lip ω x 0
  rw [sub_zero] at h2
  linarith

theorem g0_int : Integrable (fun s => nsq (G (om s) 0)) W := hB.omL.integrable_comp_of_integrable hB.sq

theorem g0_eq : ∫ s, nsq (G (om s) 0) ∂W = ∫ ω, nsq (G ω 0) ∂P := mp_int hB.omL hB.sq.1

theorem memG {X : S → Lat I} (hX : MemLp X 2 W) : MemLp (fun s => G (om s) (X s)) 2 W := by
  refine memLp_of_nsq ?_ ((hB.g0_int.const_mul 2).add ((nsq_int hX).const_mul (2 * L ^ 2))) fun s => hB.G_le (om s) (X s)
  have h1 : AEMeasurable (fun s => (om s, X s)) W := hB.omL.measurable.aemeasurable.prodMk hX.1.aemeasurable
  exact (hB.measG.comp_aemeasurable h1).aestronglyMeasurable

include hl

theorem pY : MeasurePreserving Y W (posterior l) := by
  have _ := hl.dens.prob
  exact measurePreserving_fst.comp hB.law

theorem pZ : MeasurePreserving Z W (normals I) := by
  have _ := hl.dens.prob
  exact measurePreserving_fst.comp (measurePreserving_snd.comp hB.law)

theorem memY : MemLp Y 2 W := hl.memLp_post.comp_measurePreserving (hB.pY hl)

theorem memZ : MemLp Z 2 W := (id_memLp 2).comp_measurePreserving (hB.pZ hl)

theorem Y_eq : ∫ s, nsq (Y s) ∂W = ∫ y, nsq y ∂posterior l := mp_int (hB.pY hl) continuous_nsq.aestronglyMeasurable

theorem Z_eq : ∫ s, nsq (Z s) ∂W = dim I := by
  rw [mp_int (hB.pZ hl) continuous_nsq.aestronglyMeasurable, normals_nsq]

/-- The next state of the chain that preserves the posterior. -/
theorem next (h : ℝ) : MeasurePreserving (fun s => mala l h (Y s) (Z s) (U s)) W (posterior l) :=
  (mala_post h hl.dens hl.grad_cont).comp hB.law

theorem mem_disp (h : ℝ) : MemLp (fun s => disp l h (Y s) (Z s) (U s)) 2 W := by
  have _ := hB.prob
  have h1 : MemLp (fun s => mala l h (Y s) (Z s) (U s)) 2 W := hl.memLp_post.comp_measurePreserving (hB.next hl h)
  exact h1.sub (hl.prop_memLp (hB.memY hl) (hB.memZ hl) h)

theorem disp_eq (lr : ℝ) : ∫ s, nsq (disp l (√lr) (Y s) (Z s) (U s)) ∂W = rho l lr :=
  mp_int (f := fun s : Lat I × Lat I × ℝ => nsq (disp l (√lr) s.1 s.2.1 s.2.2)) hB.law (hl.disp_meas _).aestronglyMeasurable

end Before

/-- The step of SGLD as one equation. -/
noncomputable def move (lr : ℝ) (x g z : Lat I) : Lat I := x + ((lr / 2) • g + √lr • z)

omit [Fintype V] [∀ v, Fintype (I v)] in
theorem sgld_move (lr : ℝ) (grad : Lat I → Lat I) (x z : Lat I) : (fun v => sgld lr grad z v x) = move lr x (grad x) z := by
  ext v i
  simp only [sgld, move, Pi.add_apply, Pi.smul_apply, smul_eq_mul]
  ring

theorem move_sub_mala {lr : ℝ} (hlr : 0 ≤ lr) (l : Lat I → ℝ) (x g y z : Lat I) (u : ℝ) : move lr x g z - mala l (√lr) y z u =
    (x - y) + ((lr / 2) • (g - pd l y) - disp l (√lr) y z u) := by
  have e : prop l (√lr) y z = y + ((lr / 2) • pd l y + √lr • z) := by
    rw [prop, half, smul_add, smul_smul]
    have : √lr * (√lr / 2) = lr / 2 := by
      rw [mul_div_assoc', Real.mul_self_sqrt hlr]
    rw [this]
    abel
  have e2 : mala l (√lr) y z u = y + ((lr / 2) • pd l y + √lr • z) + disp l (√lr) y z u := by
    rw [disp, ← e]
    abel
  rw [e2, move, smul_sub]
  abel

end ZhuSuan.SgWeak
