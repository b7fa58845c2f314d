import Mathlib.MeasureTheory.Integral.Pi
import Verif.Props.SgmcmcWeakNht

/-!
# C90: an iteration of SGNHT

`zhusuan/sgmcmc.py`.
-/

set_option autoImplicit false

open MeasureTheory ProbabilityTheory Filter Topology Set
open ZhuSuan.SgWeak ZhuSuan.Weak

namespace ZhuSuan.Sgmcmc

variable {V : Type} {I J : V → Type} [Fintype V] [∀ v, Fintype (I v)] [∀ v, Fintype (J v)] {Ω : Type} [MeasurableSpace Ω]

/-- What one iteration of SGNHT depends on: the position, the momentum, the draws for resampling and the friction; the
randomness of the gradient and the noise. -/
abbrev NDraws (I J : V → Type) (Ω : Type) := ((Lat I × Lat I × Lat I) × Lat J) × Ω × Lat I

/-- Their distribution when the position has the posterior distribution and the other values are standard normal. -/
noncomputable abbrev nDraws (l : Lat I → ℝ) (J : V → Type) [∀ v, Fintype (J v)] (P : Measure Ω) : Measure (NDraws I J Ω) :=
  (((posterior l).prod ((normals I).prod (normals I))).prod (normals J)).prod (P.prod (normals I))

/-- The values after the test for resampling. -/
abbrev nStart (now : V → Bool) (s : NDraws I J Ω) : ((Lat I × Lat I) × Lat J) × Ω × Lat I :=
  (((s.1.1.1, mix now s.1.1.2.2 s.1.1.2.1), s.1.2), s.2)

theorem nStart_law {l : Lat I → ℝ} (hl : LogDens l) (P : Measure Ω) [IsProbabilityMeasure P] (now : V → Bool) :
    MeasurePreserving (nStart now) (nDraws l J P)
      ((((posterior l).prod (normals I)).prod (normals J)).prod (P.prod (normals I))) := by
  have _ := hl.prob
  exact (((MeasurePreserving.id _).prod (mix_law now)).prod (MeasurePreserving.id _)).prod (MeasurePreserving.id _)

/-- A bound by a product of a function of the friction and a function of the rest. -/
theorem nht_int {l : Lat I → ℝ} (hl : LogDens l) (P : Measure Ω) [IsProbabilityMeasure P] {U : Lat J → ℝ}
    (hU : Integrable U (normals J)) {Q : (Lat I × Lat I) × Ω × Lat I → ℝ}
    (hQ : Integrable Q (((posterior l).prod (normals I)).prod (P.prod (normals I)))) :
    Integrable (fun s : ((Lat I × Lat I) × Lat J) × Ω × Lat I => U s.1.2 * Q (s.1.1, s.2))
      ((((posterior l).prod (normals I)).prod (normals J)).prod (P.prod (normals I))) := by
  have _ := hl.prob
  have h1 : MeasurePreserving (fun s : ((Lat I × Lat I) × Lat J) × Ω × Lat I => ((s.1.2, s.1.1), s.2))
      ((((posterior l).prod (normals I)).prod (normals J)).prod (P.prod (normals I)))
      (((normals J).prod ((posterior l).prod (normals I))).prod (P.prod (normals I))) :=
    Measure.measurePreserving_swap.prod (MeasurePreserving.id _)
  have h2 := (measurePreserving_prodAssoc (normals J) ((posterior l).prod (normals I)) (P.prod (normals I))).comp h1
  exact h2.integrable_comp_of_integrable (hU.mul_prod hQ)

/-- Exponential moments of normal values. -/
theorem exp_norm_int (κ : ℝ) : Integrable (fun z : Lat I => Real.exp (κ * ‖z‖)) (normals I) := by
  wlog hκ : 0 ≤ κ generalizing κ
  · refine (this (κ := 0) le_rfl).mono' (by fun_prop) (Eventually.of_forall fun z => ?_)
    rw [Real.norm_of_nonneg (Real.exp_pos _).le]
    refine Real.exp_le_exp.2 ?_
    have := norm_nonneg z
    nlinarith
  have h1 : Integrable (fun x : ℝ => Real.exp (κ * |x|)) (gaussianReal 0 1) := by
    refine ((integrable_exp_mul_gaussianReal (μ := 0) (v := 1) κ).add
      (integrable_exp_mul_gaussianReal (μ := 0) (v := 1) (-κ))).mono' (by fun_prop) (Eventually.of_forall fun x => ?_)
    rw [Real.norm_of_nonneg (Real.exp_pos _).le]
    simp only [Pi.add_apply]
    rcases abs_cases x with ⟨e, -⟩ | ⟨e, -⟩
    · rw [e]
      have := Real.exp_pos (-κ * x)
      linarith
    · rw [e, show κ * -x = -κ * x by ring]
      have := Real.exp_pos (κ * x)
      linarith
  have h2 : Integrable (fun z : Lat I => ∏ v, ∏ i, Real.exp (κ * |z v i|)) (normals I) :=
    Integrable.fintype_prod_dep fun v => Integrable.fintype_prod_dep fun i => h1
  refine h2.mono' (by fun_prop) (Eventually.of_forall fun z => ?_)
  rw [Real.norm_of_nonneg (Real.exp_pos _).le]
  simp only [← Real.exp_sum, ← Finset.mul_sum]
  exact Real.exp_le_exp.2 (mul_le_mul_of_nonneg_left (norm_le_sum z) hκ)

/-- One small step of SGNHT, in the form of a displacement with the right first order. -/
theorem nht_limit {l : Lat I → ℝ} (hl : LogDens l) (P : Measure Ω) [IsProbabilityMeasure P]
    {G : Ω → Lat I → Lat I} (hG : Unbiased P G l)
    (hG1 : Integrable (fun s : Lat I × Ω => G s.2 s.1) ((posterior l).prod P)) (now : V → Bool) {A c : ℝ}
    (hAc : c ^ 2 / 2 = A) {σ : V → ℝ} {k : (v : V) → I v → J v}
    {step : ℝ → NDraws I J Ω → (Lat I × Lat I) × Lat J}
    {b : ℝ → ((Lat I × Lat I) × Lat J) × Ω × Lat I → (Lat I × Lat I) × Lat J} {κ : ℝ}
    {Q : (Lat I × Lat I) × Ω × Lat I → ℝ} (hQ : Integrable Q (((posterior l).prod (normals I)).prod (P.prod (normals I))))
    (hb : ∀ h, AEStronglyMeasurable (b h) ((((posterior l).prod (normals I)).prod (normals J)).prod (P.prod (normals I))))
    (hbB : ∀ h, 0 < h → h ≤ 1 → ∀ s, ‖b h s‖ ≤ Real.exp (κ * ‖s.1.2‖) * Q (s.1.1, s.2))
    (hb0 : ∀ s, Tendsto (fun h => b h s) (𝓝[>] 0)
      (𝓝 ((s.1.1.2, G s.2.1 s.1.1.1 - fric A σ k s.1.2 * s.1.1.2), excess σ k s.1.1.2)))
    (hstep : ∀ h, 0 < h → ∀ s : NDraws I J Ω, step h s =
      (nStart now s).1 + √h • (((0 : Lat I), c • s.2.2), (0 : Lat J)) + h • b h (nStart now s))
    {f : (Lat I × Lat I) × Lat J → ℝ} (hT : Test f) :
    Tendsto (fun h : ℝ => ((∫ s, f (step h s) ∂nDraws l J P) -
      ∫ x, f x ∂((posterior l).prod (normals I)).prod (normals J)) / h) (𝓝[>] 0) (𝓝 0) := by
  have hgen := nht_generator hl P hG hG1 hT A c σ k
  rw [hAc, sub_self, zero_mul] at hgen
  have _ := hl.prob
  set μ := ((posterior l).prod (normals I)).prod (normals J) with hμ
  set W := μ.prod (P.prod (normals I)) with hW
  have pz : MeasurePreserving (fun s : ((Lat I × Lat I) × Lat J) × Ω × Lat I => s.2.2) W (normals I) :=
    measurePreserving_snd.comp measurePreserving_snd
  have px : MeasurePreserving (fun s : ((Lat I × Lat I) × Lat J) × Ω × Lat I => s.1) W μ := measurePreserving_fst
  have hX : AEStronglyMeasurable (fun s : ((Lat I × Lat I) × Lat J) × Ω × Lat I => s.1) W := by fun_prop
  have mz : AEStronglyMeasurable (fun s : ((Lat I × Lat I) × Lat J) × Ω × Lat I => (((0 : Lat I), c • s.2.2), (0 : Lat J))) W :=
    ((measurable_const.prodMk ((measurable_snd.comp measurable_snd).const_smul c)).prodMk
      measurable_const).aestronglyMeasurable
  have ha : MemLp (fun s : ((Lat I × Lat I) × Lat J) × Ω × Lat I => (((0 : Lat I), c • s.2.2), (0 : Lat J))) 2 W := by
    refine (((id_memLp (I := I) 2).comp_measurePreserving pz).const_smul c).mono mz (Eventually.of_forall fun s => ?_)
    simp
  have h0 : ∫ s, fderiv ℝ f s.1 (((0 : Lat I), c • s.2.2), (0 : Lat J)) ∂W = 0 := by
    rw [integral_prod _ (Test_int1 hT hX ((ha.mono_exponent (by norm_num : (1 : ENNReal) ≤ 2)).integrable le_rfl))]
    refine integral_eq_zero_of_ae (Eventually.of_forall fun x => ?_)
    set L := (fderiv ℝ f x).comp ((ContinuousLinearMap.inl ℝ (Lat I × Lat I) (Lat J)).comp
      (ContinuousLinearMap.inr ℝ (Lat I) (Lat I))) with hL
    have h := integral_prod_mul (μ := P) (ν := normals I) (fun _ => (1 : ℝ)) (fun z => L z)
    simp only [one_mul, integral_const, probReal_univ, smul_eq_mul] at h
    have e : ∀ z : Lat I, fderiv ℝ f x (((0 : Lat I), c • z), (0 : Lat J)) = c * L z := by
      intro z
      rw [← smul_eq_mul, ← map_smul]
      rfl
    simp only [e, Pi.zero_apply]
    rw [integral_const_mul, h, lin_mean, mul_zero]
  have key := weak_limit W hT hX ha (nht_int hl P (exp_norm_int κ) hQ) hb
    (fun h h1 h2 => Eventually.of_forall (hbB h h1 h2)) (Eventually.of_forall hb0) h0
  have key0 := hgen ▸ key
  refine (key0.congr' ?_)
  filter_upwards [self_mem_nhdsWithin] with h hh
  have e1 : ∫ s : ((Lat I × Lat I) × Lat J) × Ω × Lat I, f s.1 ∂W = ∫ x, f x ∂μ := by
    have := integral_map (μ := W) (φ := fun s : ((Lat I × Lat I) × Lat J) × Ω × Lat I => s.1) (by fun_prop) (f := f)
      hT.cont.aestronglyMeasurable
    rw [← this, px.map_eq]
  rw [e1]
  congr 2
  have hp : MeasurePreserving (nStart now) (nDraws l J P) W := nStart_law hl P now
  have hF : AEStronglyMeasurable (fun s : ((Lat I × Lat I) × Lat J) × Ω × Lat I =>
      f (s.1 + √h • (((0 : Lat I), c • s.2.2), (0 : Lat J)) + h • b h s)) W := hT.disp_meas hX mz (hb h) _ _
  have e3 : ∀ F : ((Lat I × Lat I) × Lat J) × Ω × Lat I → ℝ, AEStronglyMeasurable F W →
      ∫ y, F y ∂W = ∫ s : NDraws I J Ω, F (nStart now s) ∂nDraws l J P := by
    intro F hF
    rw [← hp.map_eq] at hF
    have e2 := integral_map (f := F) hp.measurable.aemeasurable hF
    rwa [hp.map_eq] at e2
  rw [e3 _ hF]
  exact integral_congr_ae (Eventually.of_forall fun s => by simp only [hstep h hh s])

/-- The state of SGNHT with position `q`, momentum `h p` and friction `h φ`. -/
def nState (h : ℝ) (q p φ : Lat I) : (v : V) → NState (I v) := fun v => ⟨q v, fun i => h * p v i, fun i => h * φ v i⟩

/-- The position, and the momentum and the friction divided by `h`. -/
noncomputable def nScaled (h : ℝ) (s : (v : V) → NState (I v)) : (Lat I × Lat I) × Lat I :=
  ((fun v => (s v).q, fun v i => (s v).v i / h), fun v i => (s v).alpha i / h)

/-- A test function of the frictions of the components is a test function of the frictions. -/
theorem Test.fric {f : (Lat I × Lat I) × Lat I → ℝ} (hf : Test f) (A : ℝ) {σ : V → ℝ} (hσ : ∀ v, σ v ≠ 0)
    {k : (v : V) → I v → J v} (hk : ∀ v, Function.Surjective (k v)) :
    Test fun x : (Lat I × Lat I) × Lat J => f (x.1, fric A σ k x.2) := by
  have hs : ContDiff ℝ 3 fun x : (Lat I × Lat I) × Lat J => (x.1, Sgmcmc.fric A σ k x.2) := by
    refine contDiff_fst.prodMk (contDiff_pi.2 fun v => contDiff_pi.2 fun i => ?_)
    unfold Sgmcmc.fric
    have : ContDiff ℝ 3 fun x : (Lat I × Lat I) × Lat J => x.2 v (k v i) :=
      (((ContinuousLinearMap.proj (k v i)).comp (ContinuousLinearMap.proj (R := ℝ) (φ := fun v => J v → ℝ) v)).comp
        (ContinuousLinearMap.snd ℝ (Lat I × Lat I) (Lat J))).contDiff
    exact contDiff_const.add (contDiff_const.mul this)
  refine ⟨hf.smooth.comp hs, ?_⟩
  choose i hi using hk
  refine hf.supp.comp_isClosedEmbedding (g := fun x : (Lat I × Lat I) × Lat J => (x.1, Sgmcmc.fric A σ k x.2)) ?_
  refine Function.LeftInverse.isClosedEmbedding (f := fun y : (Lat I × Lat I) × Lat I =>
    ((y.1, fun v j => (y.2 v (i v j) - A) / σ v) : (Lat I × Lat I) × Lat J)) ?_ (by fun_prop) hs.continuous
  intro x
  refine Prod.ext rfl ?_
  ext v j
  simp only [Sgmcmc.fric, hi]
  have := hσ v
  field_simp
  ring

theorem excess_cont (σ : V → ℝ) (k : (v : V) → I v → J v) : Continuous (excess σ k) := by
  classical
  refine continuous_pi fun v => continuous_pi fun j => ?_
  unfold excess
  refine continuous_const.mul (continuous_finsetSum _ fun i _ => ?_)
  by_cases h : k v i = j
  · simp only [h, if_true]
    fun_prop
  · simp only [h, if_false]
    fun_prop

theorem fric_cont (A : ℝ) (σ : V → ℝ) (k : (v : V) → I v → J v) : Continuous (fric A σ k) := by
  refine continuous_pi fun v => continuous_pi fun i => ?_
  unfold fric
  fun_prop

/-- The number of components of all variables. -/
def size (I : V → Type) [∀ v, Fintype (I v)] : ℕ := ∑ v, Fintype.card (I v)

theorem comp_le (p : Lat I) (v : V) (i : I v) : |p v i| ≤ ‖p‖ :=
  (norm_le_pi_norm (p v) i).trans (norm_le_pi_norm p v)

theorem sum_abs_le (σ : V → ℝ) (v : V) : |σ v| ≤ ∑ v, |σ v| :=
  Finset.single_le_sum (f := fun v => |σ v|) (fun _ _ => abs_nonneg _) (Finset.mem_univ v)

theorem excess_norm (σ : V → ℝ) (k : (v : V) → I v → J v) (p : Lat I) :
    ‖excess σ k p‖ ≤ (∑ v, |σ v|) * size I * (‖p‖ ^ 2 + 1) := by
  classical
  have hM : 0 ≤ ∑ v, |σ v| := Finset.sum_nonneg fun _ _ => abs_nonneg _
  have h0 : 0 ≤ (∑ v, |σ v|) * size I * (‖p‖ ^ 2 + 1) := by positivity
  refine (pi_norm_le_iff_of_nonneg h0).2 fun v => (pi_norm_le_iff_of_nonneg h0).2 fun j => ?_
  unfold excess
  rw [Real.norm_eq_abs, abs_mul, mul_assoc]
  refine mul_le_mul (sum_abs_le σ v) ?_ (abs_nonneg _) hM
  refine (Finset.abs_sum_le_sum_abs _ _).trans ?_
  have : ∀ i ∈ (Finset.univ : Finset (I v)), |if k v i = j then p v i ^ 2 - 1 else 0| ≤ ‖p‖ ^ 2 + 1 := by
    intro i _
    have h1 : p v i ^ 2 ≤ ‖p‖ ^ 2 := by
      rw [← sq_abs]
      exact pow_le_pow_left₀ (abs_nonneg _) (comp_le p v i) 2
    have h2 := sq_nonneg (p v i)
    have h3 := sq_nonneg ‖p‖
    split_ifs
    · rw [abs_le]
      constructor <;> linarith
    · rw [abs_zero]
      positivity
  refine (Finset.sum_le_sum this).trans ?_
  rw [Finset.sum_const, nsmul_eq_mul, Finset.card_univ]
  refine mul_le_mul_of_nonneg_right ?_ (by positivity)
  exact_mod_cast Finset.single_le_sum (f := fun v => Fintype.card (I v)) (fun _ _ => Nat.zero_le _) (Finset.mem_univ v)

theorem fric_norm {A : ℝ} (hA : 0 ≤ A) (σ : V → ℝ) (k : (v : V) → I v → J v) (η : Lat J) :
    ‖fric A σ k η‖ ≤ A + (∑ v, |σ v|) * ‖η‖ := by
  have hM : 0 ≤ ∑ v, |σ v| := Finset.sum_nonneg fun _ _ => abs_nonneg _
  have h0 : 0 ≤ A + (∑ v, |σ v|) * ‖η‖ := by positivity
  refine (pi_norm_le_iff_of_nonneg h0).2 fun v => (pi_norm_le_iff_of_nonneg h0).2 fun i => ?_
  unfold fric
  refine (norm_add_le _ _).trans ?_
  rw [Real.norm_of_nonneg hA, Real.norm_eq_abs, abs_mul]
  exact add_le_add_right (mul_le_mul (sum_abs_le σ v) (comp_le η v _) (abs_nonneg _) hM) _

omit [Fintype V] in
theorem meanSq_scale (vec : Bool) (h : ℝ) (p : Lat I) (v : V) (i : I v) :
    maybeMeanSq vec (fun i => h * p v i) i - h ^ 2 = h ^ 2 * (maybeMeanSq vec (p v) i - 1) := by
  unfold maybeMeanSq
  cases vec
  · simp only [Bool.false_eq_true, if_false, meanK, mul_pow, ← Finset.mul_sum]
    ring
  · simp only [if_true]
    ring

theorem noise_scale0 {h A : ℝ} (hh : 0 < h) : √(2 * (A * h) * h ^ 2) = h * (√h * √(2 * A)) := by
  have := noise_scale (A := A) (b := 0) hh
  simpa using this

/-- The mean change of the momenta. -/
def nhtD (A : ℝ) (σ : V → ℝ) (k : (v : V) → I v → J v) (G : Ω → Lat I → Lat I) (s : ((Lat I × Lat I) × Lat J) × Ω × Lat I) :
    Lat I := G s.2.1 s.1.1.1 - fric A σ k s.1.2 * s.1.1.2

/-- The new momenta of the first order SGNHT. -/
noncomputable def nht1P (A : ℝ) (σ : V → ℝ) (k : (v : V) → I v → J v) (G : Ω → Lat I → Lat I) (h : ℝ)
    (s : ((Lat I × Lat I) × Lat J) × Ω × Lat I) : Lat I := s.1.1.2 + h • nhtD A σ k G s + √h • √(2 * A) • s.2.2

theorem nht1_form {A τ : ℝ} {σ : V → ℝ} {k : (v : V) → I v → J v} (G : Ω → Lat I → Lat I) (now : V → Bool) (vec : Bool)
    (hM : ∀ (p : Lat I) v i, τ * (maybeMeanSq vec (p v) i - 1) = σ v * excess σ k p v (k v i)) {h : ℝ} (hh : 0 < h)
    (s : NDraws I J Ω) :
    (((nStart now s).1 + √h • (((0 : Lat I), √(2 * A) • s.2.2), (0 : Lat J)) + h • ((nht1P A σ k G h (nStart now s),
      nhtD A σ k G (nStart now s)), excess σ k (nht1P A σ k G h (nStart now s)))).1,
      fric A σ k ((nStart now s).1 + √h • (((0 : Lat I), √(2 * A) • s.2.2), (0 : Lat J)) + h • ((nht1P A σ k G h (nStart now s),
        nhtD A σ k G (nStart now s)), excess σ k (nht1P A σ k G h (nStart now s)))).2) =
    nScaled h fun v =>
        sgnht1 (h ^ 2) (A * h) τ vec (G s.2.1) now s.1.1.2.2 s.2.2 v (nState h s.1.1.1 s.1.1.2.1 (fric A σ k s.1.2)) := by
  have hh0 := hh.ne'
  set S := nStart now s with hS
  have e0 : ∀ v i, oldV (h ^ 2) now s.1.1.2.2 (fun v i => h * s.1.1.2.1 v i) v i = h * S.1.1.2 v i := fun v i =>
    congrFun (congrFun (oldV_mix hh now s.1.1.2.2 s.1.1.2.1) v) i
  have e1 : ∀ v i, (sgnht1 (h ^ 2) (A * h) τ vec (G s.2.1) now s.1.1.2.2 s.2.2 v
      (nState h s.1.1.1 s.1.1.2.1 (fric A σ k s.1.2))).v i = h * nht1P A σ k G h S v i := by
    intro v i
    simp only [sgnht1, nState]
    rw [e0, noise_scale0 hh]
    simp only [nht1P, nhtD, hS, Pi.add_apply, Pi.smul_apply, Pi.sub_apply, Pi.mul_apply, smul_eq_mul]
    ring
  have e2 : ∀ v i, (sgnht1 (h ^ 2) (A * h) τ vec (G s.2.1) now s.1.1.2.2 s.2.2 v
      (nState h s.1.1.1 s.1.1.2.1 (fric A σ k s.1.2))).q i = s.1.1.1 v i + h * nht1P A σ k G h S v i := by
    intro v i
    rw [← e1]
    rfl
  have e3 : ∀ v i, (sgnht1 (h ^ 2) (A * h) τ vec (G s.2.1) now s.1.1.2.2 s.2.2 v
      (nState h s.1.1.1 s.1.1.2.1 (fric A σ k s.1.2))).alpha i =
        h * (fric A σ k s.1.2 v i + h * (σ v * excess σ k (nht1P A σ k G h S) v (k v i))) := by
    intro v i
    have x : (sgnht1 (h ^ 2) (A * h) τ vec (G s.2.1) now s.1.1.2.2 s.2.2 v
      (nState h s.1.1.1 s.1.1.2.1 (fric A σ k s.1.2))).alpha i = h * fric A σ k s.1.2 v i + τ *
        (maybeMeanSq vec (sgnht1 (h ^ 2) (A * h) τ vec (G s.2.1) now s.1.1.2.2 s.2.2 v
          (nState h s.1.1.1 s.1.1.2.1 (fric A σ k s.1.2))).v i - h ^ 2) := rfl
    rw [x, funext fun i => e1 v i, meanSq_scale, ← hM]
    ring
  refine Prod.ext (Prod.ext ?_ ?_) ?_
  · ext v i
    simp only [nScaled, Prod.fst_add, Prod.smul_fst, Pi.add_apply, Pi.smul_apply, smul_eq_mul, smul_zero, Pi.zero_apply]
    rw [e2]
    simp only [hS]
    ring
  · ext v i
    simp only [nScaled, Prod.snd_add, Prod.smul_snd, Prod.fst_add, Prod.smul_fst, Pi.add_apply, Pi.smul_apply, smul_eq_mul]
    rw [e1, mul_div_cancel_left₀ _ hh0]
    simp only [nht1P, hS, Pi.add_apply, Pi.smul_apply, smul_eq_mul]
    ring
  · ext v i
    simp only [nScaled]
    rw [e3, mul_div_cancel_left₀ _ hh0]
    simp only [fric, hS, Prod.snd_add, Prod.smul_snd, Pi.add_apply, Pi.smul_apply, smul_eq_mul, smul_zero, Pi.zero_apply]
    ring

theorem nht1_bound {A : ℝ} (hA : 0 ≤ A) {σ : V → ℝ} {k : (v : V) → I v → J v} (G : Ω → Lat I → Lat I) {h : ℝ} (h1 : 0 < h)
    (h2 : h ≤ 1) (s : ((Lat I × Lat I) × Lat J) × Ω × Lat I) :
    ‖((nht1P A σ k G h s, nhtD A σ k G s), excess σ k (nht1P A σ k G h s))‖ ≤ Real.exp (2 * ‖s.1.2‖) *
      (((2 + A + ∑ v, |σ v| + √(2 * A)) + (∑ v, |σ v|) * size I * ((2 + A + ∑ v, |σ v| + √(2 * A)) ^ 2 + 1)) *
        (1 + ‖s.1.1.2‖ + ‖G s.2.1 s.1.1.1‖ + ‖s.2.2‖) ^ 2) := by
  set c := √(2 * A) with hcdef
  have c0 : 0 ≤ c := Real.sqrt_nonneg _
  set M := ∑ v, |σ v| with hMd
  have M0 : 0 ≤ M := Finset.sum_nonneg fun _ _ => abs_nonneg _
  set K : ℝ := 2 + A + M + c with hK
  set Y := 1 + ‖s.1.1.2‖ + ‖G s.2.1 s.1.1.1‖ + ‖s.2.2‖ with hY
  set X := Real.exp ‖s.1.2‖ with hX
  have q0 := norm_nonneg s.1.1.2
  have q1 := norm_nonneg (G s.2.1 s.1.1.1)
  have q2 := norm_nonneg s.2.2
  have q3 := norm_nonneg s.1.2
  have hX1 : ‖s.1.2‖ + 1 ≤ X := Real.add_one_le_exp _
  have X1 : 1 ≤ X := by linarith
  have Y1 : 1 ≤ Y := by linarith
  have XY : Y ≤ X * Y := le_mul_of_one_le_left (by linarith) X1
  have hφ : ‖fric A σ k s.1.2‖ ≤ (A + M) * X := by
    refine (fric_norm hA σ k s.1.2).trans ?_
    have e1 : A * 1 ≤ A * X := by gcongr
    have e2 : M * ‖s.1.2‖ ≤ M * X := by gcongr; linarith
    linarith
  have hd1 : ‖nhtD A σ k G s‖ ≤ (1 + A + M) * (X * Y) := by
    refine (norm_sub_le _ _).trans ?_
    have e1 : ‖fric A σ k s.1.2 * s.1.1.2‖ ≤ (A + M) * X * Y := (norm_mul_le _ _).trans (by gcongr; linarith)
    have e2 : ‖G s.2.1 s.1.1.1‖ ≤ X * Y := le_trans (by linarith) XY
    linarith
  have hs : √h ≤ 1 := Real.sqrt_le_one.2 h2
  have hp : ‖nht1P A σ k G h s‖ ≤ K * (X * Y) := by
    refine norm_add₃_le.trans ?_
    rw [norm_smul, norm_smul, norm_smul, Real.norm_of_nonneg h1.le, Real.norm_of_nonneg (Real.sqrt_nonneg h),
      Real.norm_of_nonneg c0]
    have e1 : h * ‖nhtD A σ k G s‖ ≤ (1 + A + M) * (X * Y) := (mul_le_of_le_one_left (norm_nonneg _) h2).trans hd1
    have e2 : √h * (c * ‖s.2.2‖) ≤ c * (X * Y) := (mul_le_of_le_one_left (by positivity) hs).trans
      (mul_le_mul_of_nonneg_left (le_trans (by linarith) XY) c0)
    have e3 : ‖s.1.1.2‖ ≤ X * Y := le_trans (by linarith) XY
    rw [hK]
    linarith
  have XY1 : 1 ≤ X * Y := by linarith
  have XY2 : X * Y ≤ (X * Y) ^ 2 := by nlinarith
  have K0 : 0 ≤ K := by positivity
  have he : ‖excess σ k (nht1P A σ k G h s)‖ ≤ M * size I * (K ^ 2 + 1) * (X * Y) ^ 2 := by
    refine (excess_norm σ k _).trans ?_
    rw [mul_assoc (M * (size I : ℝ))]
    refine mul_le_mul_of_nonneg_left ?_ (by positivity)
    have := pow_le_pow_left₀ (norm_nonneg _) hp 2
    rw [mul_pow] at this
    nlinarith
  have hB : Real.exp (2 * ‖s.1.2‖) * ((K + M * size I * (K ^ 2 + 1)) * Y ^ 2) =
      K * (X * Y) ^ 2 + M * size I * (K ^ 2 + 1) * (X * Y) ^ 2 := by
    rw [two_mul, Real.exp_add]
    ring
  rw [hB]
  have t1 : 0 ≤ M * size I * (K ^ 2 + 1) * (X * Y) ^ 2 := by positivity
  have t2 : 0 ≤ K * (X * Y) ^ 2 := by positivity
  have t3 : K * (X * Y) ≤ K * (X * Y) ^ 2 := by gcongr
  have t4 : (1 + A + M) * (X * Y) ≤ K * (X * Y) := by
    refine mul_le_mul_of_nonneg_right ?_ (by linarith)
    rw [hK]
    linarith
  rw [Prod.norm_def, Prod.norm_def]
  exact max_le (max_le (by linarith) (by linarith)) (by linarith)

/-- The first order SGNHT with any way to share the frictions. -/
theorem nht1_limit {l : Lat I → ℝ} (hl : LogDens l) (P : Measure Ω) [IsProbabilityMeasure P]
    {G : Ω → Lat I → Lat I} (hG : Unbiased P G l)
    (hG2 : MemLp (fun s : Lat I × Ω => G s.2 s.1) 2 ((posterior l).prod P)) (now : V → Bool) {A τ : ℝ} (hA : 0 ≤ A)
    {σ : V → ℝ} (hσ : ∀ v, σ v ≠ 0) {k : (v : V) → I v → J v} (hk : ∀ v, Function.Surjective (k v)) (vec : Bool)
    (hM : ∀ (p : Lat I) v i, τ * (maybeMeanSq vec (p v) i - 1) = σ v * excess σ k p v (k v i))
    {f : (Lat I × Lat I) × Lat I → ℝ} (hf : ContDiff ℝ 3 f) (hc : HasCompactSupport f) :
    Tendsto (fun h : ℝ => ((∫ s : NDraws I J Ω, f (nScaled h fun v =>
        sgnht1 (h ^ 2) (A * h) τ vec (G s.2.1) now s.1.1.2.2 s.2.2 v (nState h s.1.1.1 s.1.1.2.1 (fric A σ k s.1.2)))
          ∂nDraws l J P) - ∫ x, f (x.1, fric A σ k x.2) ∂((posterior l).prod (normals I)).prod (normals J)) / h) (𝓝[>] 0)
      (𝓝 0) := by
  have _ := hl.prob
  have hT : Test f := ⟨hf, hc⟩
  have hF := Test.fric hT A hσ hk
  set c := √(2 * A) with hcdef
  have hc2 : c ^ 2 / 2 = A := by
    rw [hcdef, Real.sq_sqrt (by linarith)]
    ring
  have c0 : 0 ≤ c := Real.sqrt_nonneg _
  set M := ∑ v, |σ v| with hMd
  have M0 : 0 ≤ M := Finset.sum_nonneg fun _ _ => abs_nonneg _
  have hG1 : Integrable (fun s : Lat I × Ω => G s.2 s.1) ((posterior l).prod P) :=
    (hG2.mono_exponent (by norm_num : (1 : ENNReal) ≤ 2)).integrable le_rfl
  set W := (((posterior l).prod (normals I)).prod (normals J)).prod (P.prod (normals I)) with hW
  set W' := ((posterior l).prod (normals I)).prod (P.prod (normals I)) with hW'
  set K : ℝ := 2 + A + M + c with hK
  have hQ : Integrable (fun s : (Lat I × Lat I) × Ω × Lat I => (K + M * size I * (K ^ 2 + 1)) *
      (1 + ‖s.1.2‖ + ‖G s.2.1 s.1.1‖ + ‖s.2.2‖) ^ 2) W' := by
    have pG : MeasurePreserving (fun s : (Lat I × Lat I) × Ω × Lat I => (s.1.1, s.2.1)) W' ((posterior l).prod P) :=
      measurePreserving_fst.prod measurePreserving_fst
    have pz : MeasurePreserving (fun s : (Lat I × Lat I) × Ω × Lat I => s.2.2) W' (normals I) :=
      measurePreserving_snd.comp measurePreserving_snd
    have pp : MeasurePreserving (fun s : (Lat I × Lat I) × Ω × Lat I => s.1.2) W' (normals I) :=
      measurePreserving_snd.comp measurePreserving_fst
    have m1 : MemLp (fun s : (Lat I × Lat I) × Ω × Lat I => 1 + ‖s.1.2‖ + ‖G s.2.1 s.1.1‖ + ‖s.2.2‖) 2 W' :=
      (((memLp_const (1 : ℝ)).add ((id_memLp (I := I) 2).comp_measurePreserving pp).norm).add
        (hG2.comp_measurePreserving pG).norm).add ((id_memLp (I := I) 2).comp_measurePreserving pz).norm
    exact m1.integrable_sq.const_mul _
  have mG : AEStronglyMeasurable (fun s : ((Lat I × Lat I) × Lat J) × Ω × Lat I => G s.2.1 s.1.1.1) W :=
    hG2.1.comp_measurePreserving ((measurePreserving_fst.comp measurePreserving_fst).prod measurePreserving_fst)
  have mp : Measurable fun s : ((Lat I × Lat I) × Lat J) × Ω × Lat I => s.1.1.2 :=
    measurable_snd.comp (measurable_fst.comp measurable_fst)
  have mz : Measurable fun s : ((Lat I × Lat I) × Lat J) × Ω × Lat I => s.2.2 := measurable_snd.comp measurable_snd
  have mφ : Measurable fun s : ((Lat I × Lat I) × Lat J) × Ω × Lat I => fric A σ k s.1.2 :=
    (fric_cont A σ k).measurable.comp (measurable_snd.comp measurable_fst)
  set d : ((Lat I × Lat I) × Lat J) × Ω × Lat I → Lat I := fun s => nhtD A σ k G s with hd
  set p1 : ℝ → ((Lat I × Lat I) × Lat J) × Ω × Lat I → Lat I := fun h s => nht1P A σ k G h s with hp1
  have md : AEStronglyMeasurable d W := mG.sub (mφ.aestronglyMeasurable.mul mp.aestronglyMeasurable)
  have mp1 : ∀ h, AEStronglyMeasurable (p1 h) W := fun h =>
    (mp.aestronglyMeasurable.add (md.const_smul h)).add ((mz.aestronglyMeasurable.const_smul c).const_smul (√h))
  refine nht_limit hl P hG hG1 now hc2 (σ := σ) (k := k) (κ := 2) (f := fun x => f (x.1, fric A σ k x.2))
    (step := fun h s => (nStart now s).1 + √h • (((0 : Lat I), c • s.2.2), (0 : Lat J)) +
      h • ((p1 h (nStart now s), d (nStart now s)), excess σ k (p1 h (nStart now s))))
    (b := fun h s => ((p1 h s, d s), excess σ k (p1 h s))) hQ ?_ ?_ ?_ (fun h hh s => rfl) hF |>.congr' ?_
  · intro h
    exact ((mp1 h).prodMk md).prodMk ((excess_cont σ k).comp_aestronglyMeasurable (mp1 h))
  · intro h h1 h2 s
    exact nht1_bound hA G h1 h2 s
  · intro s
    have t1 : Tendsto (fun h : ℝ => h) (𝓝[>] 0) (𝓝 0) := nhdsWithin_le_nhds
    have h1 : Tendsto (fun h => p1 h s) (𝓝[>] 0) (𝓝 s.1.1.2) := by
      have := ((tendsto_const_nhds (x := s.1.1.2)).add (t1.smul_const (d s))).add (sqrt_tendsto.smul_const (c • s.2.2))
      simp only [zero_smul, add_zero] at this
      exact this
    exact (h1.prodMk_nhds tendsto_const_nhds).prodMk_nhds (((excess_cont σ k).tendsto _).comp h1)
  · filter_upwards [self_mem_nhdsWithin] with h hh
    have hh' : 0 < h := hh
    have hh0 := hh'.ne'
    congr 2
    refine integral_congr_ae (Eventually.of_forall fun s => ?_)
    simp only
    congr 1
    exact nht1_form G now vec hM hh' s

end ZhuSuan.Sgmcmc
