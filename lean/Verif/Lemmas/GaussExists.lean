import Mathlib.Analysis.Matrix.Order
import Mathlib.Probability.Independence.InfinitePi
import Verif.Lemmas.LinGauss

set_option autoImplicit false

open MeasureTheory ProbabilityTheory Matrix
open scoped MatrixOrder Matrix.Norms.L2Operator

namespace ZhuSuan.Sgmcmc

variable {Ω : Type} {mΩ : MeasurableSpace Ω} {P : Measure Ω}
variable {ι κ : Type} [Fintype ι] [Fintype κ] [DecidableEq ι] [DecidableEq κ]

/-- Independent standard normals. -/
theorem normal_std : Normal (Measure.pi fun _ : ι => gaussianReal 0 1) (fun x => x) 0 (1 : Matrix ι ι ℝ) := by
  have hind : iIndepFun (fun i (x : ι → ℝ) => x i) (Measure.pi fun _ : ι => gaussianReal 0 1) :=
    iIndepFun_pi (X := fun _ => id) fun _ => aemeasurable_id
  have hl : ∀ i, HasLaw (fun x : ι → ℝ => x i) (gaussianReal 0 1) (Measure.pi fun _ : ι => gaussianReal 0 1) :=
    fun i => ⟨(measurable_pi_apply i).aemeasurable, (measurePreserving_eval (fun _ : ι => gaussianReal 0 1) i).map_eq⟩
  have hg : ∀ i, HasGaussianLaw (fun x : ι → ℝ => x i) (Measure.pi fun _ : ι => gaussianReal 0 1) :=
    fun i => (hl i).hasGaussianLaw
  refine ⟨hind.hasGaussianLaw hg, fun i => ?_, fun i j => ?_⟩
  · rw [(hl i).integral_eq]
    simp
  · rcases eq_or_ne i j with rfl | hij
    · rw [covariance_self (measurable_pi_apply i).aemeasurable, (hl i).variance_eq, variance_id_gaussianReal]
      simp
    · rw [(hind.indepFun hij).covariance_eq_zero (hg i).memLp_two (hg j).memLp_two, one_apply_ne hij]

/-- A vector with the law of a normal vector is normal. -/
theorem Normal.transfer {Ω' : Type} {mΩ' : MeasurableSpace Ω'} {P' : Measure Ω'} {m : ι → ℝ} {S : Matrix ι ι ℝ}
    {Z : Ω → Ω'} (hZ : MeasurePreserving Z P P') {X : Ω' → ι → ℝ} (h : Normal P' X m S) :
    Normal P (fun ω => X (Z ω)) m S := by
  have hX := h.law.aemeasurable
  have hX' : AEMeasurable X (P.map Z) := by rw [hZ.map_eq]; exact hX
  refine ⟨⟨?_⟩, fun i => ?_, fun i j => ?_⟩
  · have e : P.map (fun ω => X (Z ω)) = P'.map X := by
      rw [← hZ.map_eq, AEMeasurable.map_map_of_aemeasurable hX' hZ.measurable.aemeasurable]
      rfl
    rw [e]
    exact h.law.isGaussian_map
  · rw [← h.mean i, ← hZ.map_eq, integral_map hZ.measurable.aemeasurable]
    exact ((measurable_pi_apply i).comp_aemeasurable hX').aestronglyMeasurable
  · rw [← h.cov i j, ← hZ.map_eq, covariance_map_fun _ _ hZ.measurable.aemeasurable]
    · exact ((measurable_pi_apply i).comp_aemeasurable hX').aestronglyMeasurable
    · exact ((measurable_pi_apply j).comp_aemeasurable hX').aestronglyMeasurable

/-- Affine image of a normal vector. -/
theorem Normal.image {X : Ω → ι → ℝ} {m : ι → ℝ} {S : Matrix ι ι ℝ} (h : Normal P X m S)
    (A : Matrix κ ι ℝ) (b : κ → ℝ) : Normal P (fun ω => b + A.mulVec (X ω)) (b + A.mulVec m) (A * S * Aᵀ) := by
  have := h.prob
  have h0 : Normal P (fun _ => (0 : Empty → ℝ)) 0 0 := ⟨.of_subsingleton, fun i => i.elim, fun i => i.elim⟩
  have := h.affine h0 (indepFun_const_right X 0) A (0 : Matrix κ Empty ℝ) b
  simpa using this

theorem exists_factor {S : Matrix ι ι ℝ} (hS : S.PosSemidef) : ∃ B : Matrix ι ι ℝ, B * Bᵀ = S := by
  obtain ⟨B, hB⟩ := CStarAlgebra.nonneg_iff_eq_star_mul_self.mp hS.nonneg
  refine ⟨Bᵀ, ?_⟩
  rw [hB, transpose_transpose, star_eq_conjTranspose, conjTranspose_eq_transpose_of_trivial]

/-- The states of a recursion. -/
def iter (F : (ι → ℝ) → (κ → ℝ) → ι → ℝ) (X0 : Ω → ι → ℝ) (W : ℕ → Ω → κ → ℝ) : ℕ → Ω → ι → ℝ
  | 0 => X0
  | n + 1 => fun ω => F (iter F X0 W n ω) (W n ω)

/-- There are a start with any given normal law, and normal noise for every step, such that the noise of a step
is independent of the state before it, whatever the recursion. -/
theorem exists_noise (m0 : ι → ℝ) {S0 : Matrix ι ι ℝ} (hS : S0.PosSemidef) {T : Matrix κ κ ℝ}
    (hT : T.PosSemidef) :
    ∃ (Ω : Type) (_ : MeasurableSpace Ω) (P : Measure Ω) (X0 : Ω → ι → ℝ) (W : ℕ → Ω → κ → ℝ),
      Normal P X0 m0 S0 ∧ (∀ n, Normal P (W n) 0 T) ∧
      ∀ F : (ι → ℝ) → (κ → ℝ) → ι → ℝ, Measurable (Function.uncurry F) →
        ∀ n, IndepFun (iter F X0 W n) (W n) P := by
  obtain ⟨B, hB⟩ := exists_factor hS
  obtain ⟨D, hD⟩ := exists_factor hT
  let std : Measure ((ι → ℝ) × (κ → ℝ)) :=
    (Measure.pi fun _ : ι => gaussianReal 0 1).prod (Measure.pi fun _ : κ => gaussianReal 0 1)
  let P : Measure (ℕ → (ι → ℝ) × (κ → ℝ)) := Measure.infinitePi fun _ => std
  have hev : ∀ n, MeasurePreserving (fun ω : ℕ → (ι → ℝ) × (κ → ℝ) => ω n) P std := fun n =>
    ⟨by fun_prop, Measure.infinitePi_map_eval _ n⟩
  have hfst : MeasurePreserving Prod.fst std (Measure.pi fun _ : ι => gaussianReal 0 1) :=
    measurePreserving_fst
  have hsnd : MeasurePreserving Prod.snd std (Measure.pi fun _ : κ => gaussianReal 0 1) :=
    measurePreserving_snd
  refine ⟨_, _, P, fun ω => m0 + B.mulVec (ω 0).1, fun n ω => D.mulVec (ω (n + 1)).2, ?_, fun n => ?_, ?_⟩
  · have := ((normal_std (ι := ι)).transfer (hfst.comp (hev 0))).image B m0
    simpa [hB] using this
  · have := ((normal_std (ι := κ)).transfer (hsnd.comp (hev (n + 1)))).image D 0
    simpa [hD] using this
  · intro F hF n
    have hg : ∀ n, ∃ g : ((i : Finset.range (n + 1)) → (ι → ℝ) × (κ → ℝ)) → ι → ℝ, Measurable g ∧
        ∀ ω, iter F (fun ω : ℕ → (ι → ℝ) × (κ → ℝ) => m0 + B.mulVec (ω 0).1)
          (fun n ω => D.mulVec (ω (n + 1)).2) n ω = g fun i => ω i := by
      intro n
      induction n with
      | zero =>
        refine ⟨fun x => m0 + B.mulVec (x ⟨0, by simp⟩).1, ?_, fun ω => rfl⟩
        have : Continuous fun y : ι → ℝ => m0 + B.mulVec y := by fun_prop
        exact this.measurable.comp (measurable_fst.comp (measurable_pi_apply _))
      | succ n ih =>
        obtain ⟨g, hg, hgω⟩ := ih
        have hc : Continuous fun y : κ → ℝ => D.mulVec y := by fun_prop
        refine ⟨fun x => F (g fun i => x ⟨i.1, by have := i.2; simp only [Finset.mem_range] at *; omega⟩)
          (D.mulVec (x ⟨n + 1, by simp⟩).2), ?_, fun ω => ?_⟩
        · refine hF.comp (Measurable.prodMk (hg.comp (by fun_prop)) ?_)
          exact hc.measurable.comp (measurable_snd.comp (measurable_pi_apply _))
        · simp only [iter]
          rw [hgω]
    obtain ⟨g, hgm, hgω⟩ := hg n
    have hind : iIndepFun (fun i (ω : ℕ → (ι → ℝ) × (κ → ℝ)) => ω i) P :=
      iIndepFun_infinitePi (X := fun _ x => x) (by fun_prop)
    have h2 := hind.indepFun_finset (Finset.range (n + 1)) {n + 1} (by simp) (by fun_prop)
    have hc : Continuous fun y : κ → ℝ => D.mulVec y := by fun_prop
    have hm : Measurable fun x : (i : ({n + 1} : Finset ℕ)) → (ι → ℝ) × (κ → ℝ) =>
        D.mulVec (x ⟨n + 1, by simp⟩).2 :=
      hc.measurable.comp (measurable_snd.comp (measurable_pi_apply _))
    have h3 := h2.comp hgm hm
    have e : iter F (fun ω : ℕ → (ι → ℝ) × (κ → ℝ) => m0 + B.mulVec (ω 0).1)
          (fun n ω => D.mulVec (ω (n + 1)).2) n = g ∘ fun ω i => ω i := by
      funext ω
      exact hgω ω
    rw [e]
    exact h3

end ZhuSuan.Sgmcmc
