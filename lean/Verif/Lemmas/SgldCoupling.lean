import Verif.Lemmas.SgldBounds
import Verif.Model.SgldLoop

/-!
# SGLD beside a chain that preserves the posterior, over an epoch
-/

set_option autoImplicit false

open MeasureTheory ProbabilityTheory Filter Topology Set
open ZhuSuan.Sgmcmc

namespace ZhuSuan.SgWeak

variable {V : Type} {I : V → Type} [Fintype V] [∀ v, Fintype (I v)] {Ω : Type} [MeasurableSpace Ω]

/-- The states at the start of the epoch, the draw of the epoch and the states now. -/
abbrev Pair (I : V → Type) (Ω : Type) := ((Lat I × Lat I) × Ω) × (Lat I × Lat I)

/-- One step of both chains. -/
noncomputable def both (lr : ℝ) (l : Lat I → ℝ) (G : Ω → Lat I → Lat I) (s : Pair I Ω × Lat I × ℝ) : Pair I Ω :=
  (s.1.1, (move lr s.1.2.1 (G s.1.1.2 s.1.2.1) s.2.1, mala l (√lr) s.1.2.2 s.2.1 s.2.2))

/-- The joint distribution after `t` steps. -/
noncomputable def cpl (lr : ℝ) (l : Lat I → ℝ) (G : ℕ → Ω → Lat I → Lat I) (P : Measure Ω) (Γ : Measure (Lat I × Lat I)) :
    ℕ → Measure (Pair I Ω)
  | 0 => (Γ.prod P).map fun a => (a, a.1)
  | t + 1 => ((cpl lr l G P Γ t).prod ((normals I).prod Hmc.unif)).map (both lr l (G t))

/-- A joint distribution of a value and a posterior value. -/
structure Start (l : Lat I → ℝ) (Γ : Measure (Lat I × Lat I)) : Prop where
  prob : IsProbabilityMeasure Γ
  mem : MemLp (fun a : Lat I × Lat I => a.1) 2 Γ
  post : MeasurePreserving Prod.snd Γ (posterior l)

/-- What holds after `t` steps. -/
structure Inv (lr : ℝ) (l : Lat I → ℝ) (G : ℕ → Ω → Lat I → Lat I) (P : Measure Ω) (Γ : Measure (Lat I × Lat I)) (t : ℕ) : Prop where
  prob : IsProbabilityMeasure (cpl lr l G P Γ t)
  start : MeasurePreserving Prod.fst (cpl lr l G P Γ t) (Γ.prod P)
  mem : MemLp (fun a : Pair I Ω => a.2.1) 2 (cpl lr l G P Γ t)
  post : MeasurePreserving (fun a : Pair I Ω => a.2.2) (cpl lr l G P Γ t) (posterior l)

variable {l : Lat I → ℝ} {m L : ℝ} {G : ℕ → Ω → Lat I → Lat I} {P : Measure Ω} {T : ℕ} {Γ : Measure (Lat I × Lat I)} {lr : ℝ}

theorem unbiased_dot {g : Ω → Lat I → Lat I} (hG : Unbiased P g l) [IsProbabilityMeasure P] (c x : Lat I) :
    ∫ ω, dot c (g ω x - pd l x) ∂P = 0 := by
  have hi : ∀ v i, Integrable (fun ω => c v i * (g ω x v i - pd l x v i)) P := fun v i =>
    ((hG x v i).1.sub (integrable_const _)).const_mul _
  simp only [dot, Pi.sub_apply]
  rw [integral_finsetSum _ fun v _ => integrable_finsetSum _ fun i _ => hi v i]
  refine Finset.sum_eq_zero fun v _ => ?_
  rw [integral_finsetSum _ fun i _ => hi v i]
  refine Finset.sum_eq_zero fun i _ => ?_
  rw [integral_const_mul, integral_sub (hG x v i).1 (integrable_const _), (hG x v i).2]
  simp

theorem fubini_zero {A B : Type*} [MeasurableSpace A] [MeasurableSpace B] {μ : Measure A} {ν : Measure B} [SFinite μ] [SFinite ν]
    {f : A × B → ℝ} (hf : Integrable f (μ.prod ν)) (h : ∀ a, ∫ b, f (a, b) ∂ν = 0) : ∫ s, f s ∂μ.prod ν = 0 := by
  rw [integral_prod _ hf]
  exact integral_eq_zero_of_ae (Eventually.of_forall h)

theorem est_memLp (hE : Estimates P G T l L) {t : ℕ} (ht : t < T) {S : Type*} [MeasurableSpace S] {W : Measure S} {om : S → Ω}
    {X : S → Lat I} (ho : MeasurePreserving om W P) (hX : MemLp X 2 W) : MemLp (fun s => G t (om s) (X s)) 2 W := by
  have i1 : Integrable (fun s => nsq (G t (om s) 0)) W := ho.integrable_comp_of_integrable (hE.sq t ht)
  have i2 : Integrable (fun s => 2 * nsq (G t (om s) 0) + 2 * L ^ 2 * nsq (X s)) W :=
    (i1.const_mul 2).add ((nsq_int hX).const_mul (2 * L ^ 2))
  refine memLp_of_nsq ?_ i2 fun s => ?_
  · have h1 : AEMeasurable (fun s => (om s, X s)) W := ho.measurable.aemeasurable.prodMk hX.1.aemeasurable
    exact ((hE.meas t ht).comp_aemeasurable h1).aestronglyMeasurable
  · have h := nsq_add_le (G t (om s) 0) (G t (om s) (X s) - G t (om s) 0)
    rw [add_sub_cancel] at h
    have h2 := hE.lip t ht (om s) (X s) 0
    rw [sub_zero] at h2
    linarith

theorem cross_int (hl : StrongConcave l m L) [IsProbabilityMeasure P] (hE : Estimates P G T l L) (hΓ : Start l Γ) {t : ℕ}
    (ht : t < T) : Integrable (fun a : (Lat I × Lat I) × Ω => dot (a.1.1 - a.1.2) (G t a.2 a.1.1 - pd l a.1.1)) (Γ.prod P) := by
  have _ := hΓ.prob
  have p1 : MeasurePreserving (Prod.fst : (Lat I × Lat I) × Ω → _) (Γ.prod P) Γ := measurePreserving_fst
  have p2 : MeasurePreserving (Prod.snd : (Lat I × Lat I) × Ω → _) (Γ.prod P) P := measurePreserving_snd
  have mx : MemLp (fun a : (Lat I × Lat I) × Ω => a.1.1) 2 (Γ.prod P) := hΓ.mem.comp_measurePreserving p1
  have my : MemLp (fun a : (Lat I × Lat I) × Ω => a.1.2) 2 (Γ.prod P) :=
    (hl.memLp_post.comp_measurePreserving hΓ.post).comp_measurePreserving p1
  exact dot_int (mx.sub my) ((est_memLp hE ht p2 mx).sub (hl.grad_memLp mx))

theorem cross_zero (hl : StrongConcave l m L) [IsProbabilityMeasure P] (hE : Estimates P G T l L) (hΓ : Start l Γ) {t : ℕ}
    (ht : t < T) : ∫ a : (Lat I × Lat I) × Ω, dot (a.1.1 - a.1.2) (G t a.2 a.1.1 - pd l a.1.1) ∂Γ.prod P = 0 := by
  have _ := hΓ.prob
  exact fubini_zero (cross_int hl hE hΓ ht) fun a => unbiased_dot (g := G t) (hE.unbiased t ht) (a.1 - a.2) a.1

theorem both_meas (hl : StrongConcave l m L) {g : Ω → Lat I → Lat I} (hg : Measurable fun a : Ω × Lat I => g a.1 a.2) (lr : ℝ) :
    Measurable (both lr l g) := by
  have h1 : Measurable fun s : Pair I Ω × Lat I × ℝ => (s.1.1.2, s.1.2.1) := by fun_prop
  have h2 : Measurable fun s : Pair I Ω × Lat I × ℝ => (s.1.2.2, s.2.1, s.2.2) := by fun_prop
  have h3 : Measurable fun s : Pair I Ω × Lat I × ℝ => g s.1.1.2 s.1.2.1 := hg.comp h1
  have h4 : Measurable fun s : Pair I Ω × Lat I × ℝ => mala l (√lr) s.1.2.2 s.2.1 s.2.2 :=
    (mala_meas _ hl.grad_cont hl.smooth.continuous).comp h2
  have h5 : Measurable fun s : Pair I Ω × Lat I × ℝ => s.1.2.1 := by fun_prop
  have h6 : Measurable fun s : Pair I Ω × Lat I × ℝ => s.2.1 := by fun_prop
  have h7 : Measurable fun s : Pair I Ω × Lat I × ℝ => move lr s.1.2.1 (g s.1.1.2 s.1.2.1) s.2.1 :=
    h5.add ((h3.const_smul (lr / 2)).add (h6.const_smul (√lr)))
  exact (by fun_prop : Measurable fun s : Pair I Ω × Lat I × ℝ => s.1.1).prodMk (h7.prodMk h4)

/-- The joint distribution before a step. -/
theorem Inv.before (hl : StrongConcave l m L) [IsProbabilityMeasure P] (hE : Estimates P G T l L) (hΓ : Start l Γ) {t : ℕ}
    (ht : t < T) (h : Inv lr l G P Γ t) :
    Before ((cpl lr l G P Γ t).prod ((normals I).prod Hmc.unif)) P l (G t) L (fun s => s.1.1.1.1) (fun s => s.1.1.1.2)
      (fun s => s.1.2.1) (fun s => s.1.2.2) (fun s => s.2.1) (fun s => s.1.1.2) (fun s => s.2.2) := by
  have _ := h.prob
  have _ := hΓ.prob
  set Θ := cpl lr l G P Γ t with hΘ
  have p1 : MeasurePreserving (Prod.fst : Pair I Ω × Lat I × ℝ → Pair I Ω) (Θ.prod ((normals I).prod Hmc.unif)) Θ :=
    measurePreserving_fst
  have p2 : MeasurePreserving (fun a : Pair I Ω => a.1.1) Θ Γ := measurePreserving_fst.comp h.start
  have p3 : MeasurePreserving (fun a : Pair I Ω => a.1.2) Θ P := measurePreserving_snd.comp h.start
  refine ⟨inferInstance, ?_, ?_, ?_, ?_, ?_, hE.meas t ht, hE.sq t ht, hE.lip t ht, ?_⟩
  · exact (hΓ.mem.comp_measurePreserving p2).comp_measurePreserving p1
  · exact h.mem.comp_measurePreserving p1
  · exact ((hl.memLp_post.comp_measurePreserving hΓ.post).comp_measurePreserving p2).comp_measurePreserving p1
  · exact h.post.prod (MeasurePreserving.id _)
  · exact p3.comp p1
  · have h2 := mp_int (h.start.comp p1) (cross_int hl hE hΓ ht).1
    rw [cross_zero hl hE hΓ ht] at h2
    exact h2

theorem inv_zero [IsProbabilityMeasure P] (hΓ : Start l Γ) : Inv lr l G P Γ 0 := by
  have _ := hΓ.prob
  have hm : Measurable fun a : (Lat I × Lat I) × Ω => ((a, a.1) : Pair I Ω) := by fun_prop
  have mp : MeasurePreserving (fun a : (Lat I × Lat I) × Ω => ((a, a.1) : Pair I Ω)) (Γ.prod P) (cpl lr l G P Γ 0) := ⟨hm, rfl⟩
  refine ⟨by rw [← mp.map_eq]; exact Measure.isProbabilityMeasure_map hm.aemeasurable, ⟨measurable_fst, ?_⟩, ?_, ⟨by fun_prop, ?_⟩⟩
  · rw [← mp.map_eq, Measure.map_map measurable_fst hm]
    exact Measure.map_id
  · have h1 : MemLp (fun a : (Lat I × Lat I) × Ω => a.1.1) 2 (Γ.prod P) := hΓ.mem.comp_measurePreserving measurePreserving_fst
    rw [← mp.map_eq]
    exact (memLp_map_measure_iff (by fun_prop) hm.aemeasurable).2 h1
  · rw [← mp.map_eq, Measure.map_map (by fun_prop) hm]
    exact (hΓ.post.comp (measurePreserving_fst (μ := Γ) (ν := P))).map_eq

theorem inv_succ (hl : StrongConcave l m L) [IsProbabilityMeasure P] (hE : Estimates P G T l L) (hΓ : Start l Γ) {t : ℕ}
    (ht : t < T) (h : Inv lr l G P Γ t) : Inv lr l G P Γ (t + 1) := by
  have _ := h.prob
  have _ := hΓ.prob
  have hB := h.before hl hE hΓ ht
  have hm := both_meas hl (hE.meas t ht) lr
  have mp : MeasurePreserving (both lr l (G t)) ((cpl lr l G P Γ t).prod ((normals I).prod Hmc.unif)) (cpl lr l G P Γ (t + 1)) :=
    ⟨hm, rfl⟩
  refine ⟨by rw [← mp.map_eq]; exact Measure.isProbabilityMeasure_map hm.aemeasurable, ⟨measurable_fst, ?_⟩, ?_, ⟨by fun_prop, ?_⟩⟩
  · rw [← mp.map_eq, Measure.map_map measurable_fst hm]
    exact (h.start.comp (measurePreserving_fst (μ := cpl lr l G P Γ t) (ν := (normals I).prod Hmc.unif))).map_eq
  · rw [← mp.map_eq]
    exact (memLp_map_measure_iff (by fun_prop) hm.aemeasurable).2 (hB.mem_move hl lr)
  · rw [← mp.map_eq, Measure.map_map (by fun_prop) hm]
    exact (hB.next hl (√lr)).map_eq

theorem inv_all (hl : StrongConcave l m L) [IsProbabilityMeasure P] (hE : Estimates P G T l L) (hΓ : Start l Γ) (lr : ℝ) {t : ℕ}
    (ht : t ≤ T) : Inv lr l G P Γ t := by
  induction t with
  | zero => exact inv_zero hΓ
  | succ t ih => exact inv_succ hl hE hΓ ht (ih (by omega))

end ZhuSuan.SgWeak
