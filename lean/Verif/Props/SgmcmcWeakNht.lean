import Verif.Props.SgmcmcWeakHmc

/-!
# C90: SGNHT

`zhusuan/sgmcmc.py`.  The frictions of variable `v` are indexed by `J v`, and `k` says which friction a component has:
one for every component, or one for all.
-/

set_option autoImplicit false

open MeasureTheory ProbabilityTheory Filter Topology Set
open ZhuSuan.SgWeak ZhuSuan.Weak

namespace ZhuSuan.Sgmcmc

variable {V : Type} {I J : V → Type} [Fintype V] [∀ v, Fintype (I v)] [∀ v, Fintype (J v)] {Ω : Type} [MeasurableSpace Ω]

instance lat3_haar : (volume : Measure ((Lat I × Lat I) × Lat J)).IsAddHaarMeasure := prod_haar

/-- The direction of a position. -/
noncomputable abbrev qd (J : V → Type) (v : V) (i : I v) : (Lat I × Lat I) × Lat J := ((unit v i, 0), 0)

/-- The direction of a momentum. -/
noncomputable abbrev pdr (J : V → Type) (v : V) (i : I v) : (Lat I × Lat I) × Lat J := ((0, unit v i), 0)

/-- The direction of a friction. -/
noncomputable abbrev ad (I : V → Type) (v : V) (j : J v) : (Lat I × Lat I) × Lat J := (0, unit v j)

theorem ext_fderiv {E : Type*} [NormedAddCommGroup E] [NormedSpace ℝ E] {m : E → ℝ} (hm : ContDiff ℝ 1 m)
    (x d : E × Lat J) : fderiv ℝ (fun s : E × Lat J => m s.1 + gl s.2) x d = fderiv ℝ m x.1 d.1 + fderiv ℝ gl x.2 d.2 := by
  have h1 := ((hm.differentiable (by norm_num) x.1).hasFDerivAt).comp x (hasFDerivAt_fst (𝕜 := ℝ) (p := x))
  have h2 := ((gl_smooth.differentiable (by norm_num) x.2).hasFDerivAt).comp x (hasFDerivAt_snd (𝕜 := ℝ) (p := x))
  have := (h1.add h2).fderiv
  have e : fderiv ℝ (fun s : E × Lat J => m s.1 + gl s.2) x = _ := this
  rw [e]
  simp

/-- The log density of position, momentum and friction. -/
noncomputable def nhtLog (l : Lat I → ℝ) (x : (Lat I × Lat I) × Lat J) : ℝ := (l x.1.1 + gl x.1.2) + gl x.2

theorem nht_dens {l : Lat I → ℝ} (hl : LogDens l) : LogDens (nhtLog l (J := J)) ∧
    ((posterior l).prod (normals I)).prod (normals J) = posterior (nhtLog l) := by
  obtain ⟨h1, e1⟩ := prod_dens (I := I) hl
  obtain ⟨h2, e2⟩ := prod_dens (I := J) h1
  exact ⟨h2, by rw [e1, e2]; rfl⟩

theorem nht_fderiv {l : Lat I → ℝ} (hl : LogDens l) (x d : (Lat I × Lat I) × Lat J) :
    fderiv ℝ (nhtLog l) x d = fderiv ℝ l x.1.1 d.1.1 + fderiv ℝ gl x.1.2 d.1.2 + fderiv ℝ gl x.2 d.2 := by
  obtain ⟨h1, -⟩ := prod_dens (I := I) hl
  unfold nhtLog
  rw [ext_fderiv h1.smooth, ext_fderiv hl.smooth]

theorem cont_p (v : V) (i : I v) : Continuous fun x : (Lat I × Lat I) × Lat J => x.1.2 v i :=
  (continuous_apply i).comp ((continuous_apply v).comp (continuous_snd.comp continuous_fst))

theorem cont_a (v : V) (j : J v) : Continuous fun x : (Lat I × Lat I) × Lat J => x.2 v j :=
  (continuous_apply j).comp ((continuous_apply v).comp continuous_snd)

theorem nht_transport {l : Lat I → ℝ} (hl : LogDens l) {f : (Lat I × Lat I) × Lat J → ℝ} (hf : Test f) (v : V) (i : I v) :
    ∫ x, (x.1.2 v i * fderiv ℝ f x (qd J v i) + pd l x.1.1 v i * fderiv ℝ f x (pdr J v i))
      ∂((posterior l).prod (normals I)).prod (normals J) = 0 := by
  obtain ⟨hd, he⟩ := nht_dens (J := J) hl
  have _ := hd.prob
  rw [he]
  have c1 : Continuous fun x : (Lat I × Lat I) × Lat J => x.1.2 v i := cont_p v i
  have c2 : Continuous fun x : (Lat I × Lat I) × Lat J => pd l x.1.1 v i :=
    ((hl.smooth.continuous_fderiv (by norm_num)).comp (continuous_fst.comp continuous_fst)).clm_apply continuous_const
  rw [integral_add (Test.dirInt hf c1 _) (Test.dirInt hf c2 _), Test.parts hd hf c1 (by simp),
    Test.parts hd hf c2 (by simp)]
  simp only [nht_fderiv hl, gl_deriv, map_zero, add_zero, zero_add]
  have e : ∫ x : (Lat I × Lat I) × Lat J, pd l x.1.1 v i * f x * -x.1.2 v i ∂posterior (nhtLog l) =
      - ∫ x : (Lat I × Lat I) × Lat J, x.1.2 v i * f x * fderiv ℝ l x.1.1 (unit v i) ∂posterior (nhtLog l) := by
    rw [← integral_neg]
    refine integral_congr_ae (Eventually.of_forall fun x => ?_)
    simp only [pd]
    ring
  rw [e]
  ring

theorem nht_friction {l : Lat I → ℝ} (hl : LogDens l) {f : (Lat I × Lat I) × Lat J → ℝ} (hf : Test f) (v : V) (i : I v) :
    ∫ x, hess f x (pdr J v i) (pdr J v i) ∂((posterior l).prod (normals I)).prod (normals J) =
      ∫ x, x.1.2 v i * fderiv ℝ f x (pdr J v i) ∂((posterior l).prod (normals I)).prod (normals J) := by
  obtain ⟨hd, he⟩ := nht_dens (J := J) hl
  rw [he, Test.hessParts hd hf, ← integral_neg]
  refine integral_congr_ae (Eventually.of_forall fun x => ?_)
  simp only [nht_fderiv hl, gl_deriv, map_zero, zero_add, add_zero]
  ring

/-- A component of the momentum times a test function is a test function. -/
theorem Test.mul_p {f : (Lat I × Lat I) × Lat J → ℝ} (hf : Test f) (v : V) (i : I v) :
    Test (fun x => x.1.2 v i * f x) ∧ ∀ x d, fderiv ℝ (fun x => x.1.2 v i * f x) x d =
      x.1.2 v i * fderiv ℝ f x d + d.1.2 v i * f x := by
  set L : (Lat I × Lat I) × Lat J →L[ℝ] ℝ := ((ContinuousLinearMap.proj i).comp (ContinuousLinearMap.proj (R := ℝ)
    (φ := fun v => I v → ℝ) v)).comp ((ContinuousLinearMap.snd ℝ (Lat I) (Lat I)).comp
      (ContinuousLinearMap.fst ℝ (Lat I × Lat I) (Lat J))) with hL
  have e : (fun x : (Lat I × Lat I) × Lat J => x.1.2 v i * f x) = fun x => L x * f x := rfl
  rw [e]
  refine ⟨⟨L.contDiff.mul hf.smooth, hf.supp.mul_left⟩, fun x d => ?_⟩
  have hd : fderiv ℝ (fun x => L x * f x) x = _ := (L.hasFDerivAt.mul (hf.d1 x)).fderiv
  rw [hd]
  simp only [_root_.add_apply, _root_.smul_apply, smul_eq_mul]
  have e1 : L x = x.1.2 v i := rfl
  have e2 : L d = d.1.2 v i := rfl
  rw [e1, e2]
  ring

/-- The friction by the thermostat is compensated by the change of the thermostat. -/
theorem nht_thermostat {l : Lat I → ℝ} (hl : LogDens l) {f : (Lat I × Lat I) × Lat J → ℝ} (hf : Test f) (v : V) (i : I v)
    (j : J v) : ∫ x, x.2 v j * x.1.2 v i * fderiv ℝ f x (pdr J v i) ∂((posterior l).prod (normals I)).prod (normals J) =
      ∫ x, (x.1.2 v i ^ 2 - 1) * fderiv ℝ f x (ad I v j) ∂((posterior l).prod (normals I)).prod (normals J) := by
  obtain ⟨hd, he⟩ := nht_dens (J := J) hl
  have _ := hd.prob
  rw [he]
  have c1 := cont_p (J := J) v i
  have c2 := cont_a (I := I) v j
  obtain ⟨hT, hder⟩ := Test.mul_p hf v i
  have h1 := Test.parts hd hT (φ := fun x => x.2 v j) (d := pdr J v i) c2 (by simp)
  have h2 := Test.parts hd hf (φ := fun x => x.1.2 v i ^ 2 - 1) (d := ad I v j) ((c1.pow 2).sub continuous_const) (by simp)
  simp only [hder, nht_fderiv hl, gl_deriv, map_zero, zero_add, add_zero] at h1
  simp only [nht_fderiv hl, gl_deriv, map_zero, zero_add, add_zero, Prod.fst_zero, Prod.snd_zero] at h2
  have hu : (unit v i : Lat I) v i = 1 := by simp [unit]
  have i1 : Integrable (fun x : (Lat I × Lat I) × Lat J => x.2 v j * x.1.2 v i * fderiv ℝ f x (pdr J v i)) (posterior (nhtLog l)) :=
    Test.dirInt hf (c2.mul c1) _
  have i2 : Integrable (fun x : (Lat I × Lat I) × Lat J => x.2 v j * f x) (posterior (nhtLog l)) :=
    (c2.mul hf.cont).integrable_of_hasCompactSupport hf.supp.mul_left
  have i3 : Integrable (fun x : (Lat I × Lat I) × Lat J => x.2 v j * x.1.2 v i ^ 2 * f x) (posterior (nhtLog l)) :=
    ((c2.mul (c1.pow 2)).mul hf.cont).integrable_of_hasCompactSupport hf.supp.mul_left
  have e1 : ∫ x : (Lat I × Lat I) × Lat J, x.2 v j * (x.1.2 v i * fderiv ℝ f x (pdr J v i) + (unit v i : Lat I) v i * f x)
      ∂posterior (nhtLog l) = (∫ x, x.2 v j * x.1.2 v i * fderiv ℝ f x (pdr J v i) ∂posterior (nhtLog l)) +
        ∫ x, x.2 v j * f x ∂posterior (nhtLog l) := by
    rw [← integral_add i1 i2]
    refine integral_congr_ae (Eventually.of_forall fun x => ?_)
    simp only [hu]
    ring
  have e2 : ∫ x : (Lat I × Lat I) × Lat J, x.2 v j * (x.1.2 v i * f x) * -x.1.2 v i ∂posterior (nhtLog l) =
      - ∫ x, x.2 v j * x.1.2 v i ^ 2 * f x ∂posterior (nhtLog l) := by
    rw [← integral_neg]
    refine integral_congr_ae (Eventually.of_forall fun x => ?_)
    simp only
    ring
  have e3 : ∫ x : (Lat I × Lat I) × Lat J, (x.1.2 v i ^ 2 - 1) * f x * -x.2 v j ∂posterior (nhtLog l) =
      (∫ x, x.2 v j * f x ∂posterior (nhtLog l)) - ∫ x, x.2 v j * x.1.2 v i ^ 2 * f x ∂posterior (nhtLog l) := by
    rw [← integral_sub i2 i3]
    refine integral_congr_ae (Eventually.of_forall fun x => ?_)
    simp only
    ring
  rw [e1, e2] at h1
  rw [e3] at h2
  linarith

/-- The frictions of the components. -/
def fric (A : ℝ) (σ : V → ℝ) (k : (v : V) → I v → J v) (η : Lat J) : Lat I := fun v i => A + σ v * η v (k v i)

open scoped Classical in
/-- The sum of the squared momenta, less their mean, of the components with a given friction. -/
noncomputable def excess (σ : V → ℝ) (k : (v : V) → I v → J v) (p : Lat I) : Lat J := fun v j =>
  σ v * ∑ i, if k v i = j then p v i ^ 2 - 1 else 0

theorem lin_q3 (L : (Lat I × Lat I) × Lat J →L[ℝ] ℝ) (u : Lat I) : L ((u, 0), 0) = ∑ v, ∑ i, u v i * L (qd J v i) := by
  have := lin_q (L.comp (ContinuousLinearMap.inl ℝ (Lat I × Lat I) (Lat J))) u
  simpa using this

theorem lin_p3 (L : (Lat I × Lat I) × Lat J →L[ℝ] ℝ) (u : Lat I) : L ((0, u), 0) = ∑ v, ∑ i, u v i * L (pdr J v i) := by
  have := lin_p (L.comp (ContinuousLinearMap.inl ℝ (Lat I × Lat I) (Lat J))) u
  simpa using this

theorem lin_a3 (L : (Lat I × Lat I) × Lat J →L[ℝ] ℝ) (u : Lat J) : L (0, u) = ∑ v, ∑ j, u v j * L (ad I v j) := by
  have := lin_sum (L.comp (ContinuousLinearMap.inr ℝ (Lat I × Lat I) (Lat J))) u
  simpa using this

theorem lin_excess (L : (Lat I × Lat I) × Lat J →L[ℝ] ℝ) (σ : V → ℝ) (k : (v : V) → I v → J v) (p : Lat I) :
    L (0, excess σ k p) = ∑ v, ∑ i, σ v * (p v i ^ 2 - 1) * L (ad I v (k v i)) := by
  classical
  rw [lin_a3]
  refine Finset.sum_congr rfl fun v _ => ?_
  simp only [excess, Finset.mul_sum, Finset.sum_mul]
  rw [Finset.sum_comm]
  refine Finset.sum_congr rfl fun i _ => ?_
  rw [Finset.sum_eq_single (k v i)]
  · simp
  · intro j _ hj
    rw [if_neg (Ne.symm hj)]
    ring
  · simp

/-- The generator of SGNHT. -/
theorem nht_generator {l : Lat I → ℝ} (hl : LogDens l) (P : Measure Ω) [IsProbabilityMeasure P]
    {G : Ω → Lat I → Lat I} (hG : Unbiased P G l)
    (hG1 : Integrable (fun s : Lat I × Ω => G s.2 s.1) ((posterior l).prod P)) {f : (Lat I × Lat I) × Lat J → ℝ} (hf : Test f)
    (A c : ℝ) (σ : V → ℝ) (k : (v : V) → I v → J v) :
    ∫ s : ((Lat I × Lat I) × Lat J) × Ω × Lat I,
      (fderiv ℝ f s.1 ((s.1.1.2, G s.2.1 s.1.1.1 - fric A σ k s.1.2 * s.1.1.2), excess σ k s.1.1.2) +
        1 / 2 * hess f s.1 ((0, c • s.2.2), 0) ((0, c • s.2.2), 0))
        ∂(((posterior l).prod (normals I)).prod (normals J)).prod (P.prod (normals I)) =
      (c ^ 2 / 2 - A) * ∫ x : (Lat I × Lat I) × Lat J, ∑ v, ∑ i, x.1.2 v i * fderiv ℝ f x (pdr J v i)
        ∂((posterior l).prod (normals I)).prod (normals J) := by
  obtain ⟨hd, he⟩ := nht_dens (J := J) hl
  have _ := hl.prob
  set μ := ((posterior l).prod (normals I)).prod (normals J) with hμ
  set W := μ.prod (P.prod (normals I)) with hW
  have pG : MeasurePreserving (fun s : ((Lat I × Lat I) × Lat J) × Ω × Lat I => (s.1.1.1, s.2.1)) W ((posterior l).prod P) :=
    (measurePreserving_fst.comp measurePreserving_fst).prod measurePreserving_fst
  have pz : MeasurePreserving (fun s : ((Lat I × Lat I) × Lat J) × Ω × Lat I => s.2.2) W (normals I) :=
    measurePreserving_snd.comp measurePreserving_snd
  have px : MeasurePreserving (fun s : ((Lat I × Lat I) × Lat J) × Ω × Lat I => s.1) W μ := measurePreserving_fst
  have hX : AEStronglyMeasurable (fun s : ((Lat I × Lat I) × Lat J) × Ω × Lat I => s.1) W := by fun_prop
  have iG : Integrable (fun s : ((Lat I × Lat I) × Lat J) × Ω × Lat I => G s.2.1 s.1.1.1) W :=
    pG.integrable_comp_of_integrable hG1
  have hz : MemLp (fun s : ((Lat I × Lat I) × Lat J) × Ω × Lat I => (((0 : Lat I), c • s.2.2), (0 : Lat J))) 2 W := by
    have := ((id_memLp (I := I) 2).comp_measurePreserving pz).const_smul c
    refine this.mono ((measurable_const.prodMk ((measurable_snd.comp measurable_snd).const_smul c)).prodMk
      measurable_const).aestronglyMeasurable (Eventually.of_forall fun s => ?_)
    simp
  have ig : Integrable (fun s : ((Lat I × Lat I) × Lat J) × Ω × Lat I =>
      (((0 : Lat I), G s.2.1 s.1.1.1), (0 : Lat J))) W :=
    ((integrable_zero _ _ _).prodMk iG).prodMk (integrable_zero _ _ _)
  have cd : ∀ v i, Continuous fun x : (Lat I × Lat I) × Lat J => pd l x.1.1 v i := fun v i =>
    ((hl.smooth.continuous_fderiv (by norm_num)).comp (continuous_fst.comp continuous_fst)).clm_apply continuous_const
  have k0 : ∀ v i, Integrable (fun x : (Lat I × Lat I) × Lat J => x.1.2 v i * fderiv ℝ f x (qd J v i)) μ := fun v i =>
    Test.dirInt hf (cont_p v i) _
  have k1 : ∀ v i, Integrable (fun x : (Lat I × Lat I) × Lat J => x.1.2 v i * fderiv ℝ f x (qd J v i) +
      pd l x.1.1 v i * fderiv ℝ f x (pdr J v i)) μ := fun v i => (k0 v i).add (Test.dirInt hf (cd v i) _)
  have k2 : ∀ v i, Integrable (fun x : (Lat I × Lat I) × Lat J => x.1.2 v i * fderiv ℝ f x (pdr J v i)) μ := fun v i =>
    Test.dirInt hf (cont_p v i) _
  have k3 : ∀ v i, Integrable (fun x : (Lat I × Lat I) × Lat J => hess f x (pdr J v i) (pdr J v i)) μ := fun v i =>
    Test.hessInt hf _
  have k4 : ∀ v i, Integrable (fun x : (Lat I × Lat I) × Lat J =>
      x.2 v (k v i) * x.1.2 v i * fderiv ℝ f x (pdr J v i)) μ := fun v i =>
    Test.dirInt hf ((cont_a v _).mul (cont_p v i)) _
  have k5 : ∀ v i, Integrable (fun x : (Lat I × Lat I) × Lat J =>
      (x.1.2 v i ^ 2 - 1) * fderiv ℝ f x (ad I v (k v i))) μ := fun v i =>
    Test.dirInt hf (((cont_p v i).pow 2).sub continuous_const) _
  set F1 : (Lat I × Lat I) × Lat J → ℝ := fun x => ∑ v, ∑ i, (x.1.2 v i * fderiv ℝ f x (qd J v i) -
    A * (x.1.2 v i * fderiv ℝ f x (pdr J v i)) - σ v * (x.2 v (k v i) * x.1.2 v i * fderiv ℝ f x (pdr J v i)) +
      σ v * ((x.1.2 v i ^ 2 - 1) * fderiv ℝ f x (ad I v (k v i)))) with hF1
  have k6 : ∀ v i, Integrable (fun x : (Lat I × Lat I) × Lat J => x.1.2 v i * fderiv ℝ f x (qd J v i) -
    A * (x.1.2 v i * fderiv ℝ f x (pdr J v i)) - σ v * (x.2 v (k v i) * x.1.2 v i * fderiv ℝ f x (pdr J v i)) +
      σ v * ((x.1.2 v i ^ 2 - 1) * fderiv ℝ f x (ad I v (k v i)))) μ := fun v i =>
    (((k0 v i).sub ((k2 v i).const_mul A)).sub ((k4 v i).const_mul (σ v))).add ((k5 v i).const_mul (σ v))
  have iF1 : Integrable F1 μ := integrable_finsetSum _ fun v _ => integrable_finsetSum _ fun i _ => k6 v i
  have split : ∀ s : ((Lat I × Lat I) × Lat J) × Ω × Lat I,
      fderiv ℝ f s.1 ((s.1.1.2, G s.2.1 s.1.1.1 - fric A σ k s.1.2 * s.1.1.2), excess σ k s.1.1.2) =
        F1 s.1 + fderiv ℝ f s.1 ((0, G s.2.1 s.1.1.1), 0) := by
    intro s
    have e : (((s.1.1.2, G s.2.1 s.1.1.1 - fric A σ k s.1.2 * s.1.1.2), excess σ k s.1.1.2) : (Lat I × Lat I) × Lat J) =
        ((s.1.1.2, 0), 0) - ((0, fric A σ k s.1.2 * s.1.1.2), 0) + (0, excess σ k s.1.1.2) + ((0, G s.2.1 s.1.1.1), 0) := by
      refine Prod.ext (Prod.ext ?_ ?_) ?_ <;> simp
      abel
    rw [e, map_add, map_add, map_sub, lin_q3, lin_p3, lin_excess, ← Finset.sum_sub_distrib, ← Finset.sum_add_distrib]
    congr 1
    refine Finset.sum_congr rfl fun v _ => ?_
    rw [← Finset.sum_sub_distrib, ← Finset.sum_add_distrib]
    refine Finset.sum_congr rfl fun i _ => ?_
    simp only [fric, Pi.mul_apply]
    ring
  simp only [split]
  have j0 : Integrable (fun s : ((Lat I × Lat I) × Lat J) × Ω × Lat I => F1 s.1) W := px.integrable_comp_of_integrable iF1
  have j1 := Test_int1 hf hX ig
  have j2 := (Test_int2 hf hX hz).const_mul (1 / 2)
  have j01 : Integrable (fun s : ((Lat I × Lat I) × Lat J) × Ω × Lat I =>
      F1 s.1 + fderiv ℝ f s.1 ((0, G s.2.1 s.1.1.1), 0)) W := j0.add j1
  rw [integral_add j01 j2, integral_add j0 j1, integral_prod _ j1, integral_prod _ j2]
  have i0 : ∫ s : ((Lat I × Lat I) × Lat J) × Ω × Lat I, F1 s.1 ∂W = ∫ x, F1 x ∂μ := by
    have hm := iF1.1
    rw [← px.map_eq] at hm
    have := integral_map (f := F1) px.measurable.aemeasurable hm
    rw [← this, px.map_eq]
  have i1 : ∀ x : (Lat I × Lat I) × Lat J, ∫ y : Ω × Lat I, fderiv ℝ f x ((0, G y.1 x.1.1), 0) ∂P.prod (normals I) =
      ∑ v, ∑ i, pd l x.1.1 v i * fderiv ℝ f x (pdr J v i) := by
    intro x
    set L := (fderiv ℝ f x).comp ((ContinuousLinearMap.inl ℝ (Lat I × Lat I) (Lat J)).comp
      (ContinuousLinearMap.inr ℝ (Lat I) (Lat I))) with hL
    have h := integral_prod_mul (μ := P) (ν := normals I) (fun ω => L (G ω x.1.1)) (fun _ => (1 : ℝ))
    simp only [mul_one, integral_const, probReal_univ, smul_eq_mul] at h
    have h2 := h.trans (drift_mean hG L x.1.1)
    exact h2
  have i2 : ∀ x : (Lat I × Lat I) × Lat J, ∫ y : Ω × Lat I, 1 / 2 * hess f x ((0, c • y.2), 0) ((0, c • y.2), 0)
      ∂P.prod (normals I) = c ^ 2 / 2 * ∑ v, ∑ i, hess f x (pdr J v i) (pdr J v i) := by
    intro x
    set T : Lat I →L[ℝ] (Lat I × Lat I) × Lat J := (ContinuousLinearMap.inl ℝ (Lat I × Lat I) (Lat J)).comp
      (ContinuousLinearMap.inr ℝ (Lat I) (Lat I)) with hT
    set L : Lat I →L[ℝ] Lat I →L[ℝ] ℝ := ((ContinuousLinearMap.compL ℝ (Lat I) ((Lat I × Lat I) × Lat J) ℝ).flip T).comp
      ((hess f x).comp T) with hL
    have hLa : ∀ u w, L u w = hess f x ((0, u), 0) ((0, w), 0) := fun u w => by simp [hL, hT]
    have e : ∀ z : Lat I, hess f x ((0, c • z), 0) ((0, c • z), 0) = c ^ 2 * L z z := by
      intro z
      rw [← hLa]
      simp
      ring
    have h := integral_prod_mul (μ := P) (ν := normals I) (fun _ => (1 : ℝ)) (fun z => L z z)
    simp only [one_mul, integral_const, probReal_univ, smul_eq_mul] at h
    simp only [e]
    rw [integral_const_mul, integral_const_mul, h, bilin_mean]
    simp only [hLa]
    ring
  rw [i0]
  simp only [i1, i2]
  have kd : ∀ v i, Integrable (fun x : (Lat I × Lat I) × Lat J => pd l x.1.1 v i * fderiv ℝ f x (pdr J v i)) μ :=
    fun v i => Test.dirInt hf (cd v i) _
  have dsum : ∀ {g : (v : V) → I v → (Lat I × Lat I) × Lat J → ℝ}, (∀ v i, Integrable (g v i) μ) →
      ∫ x, ∑ v, ∑ i, g v i x ∂μ = ∑ v, ∑ i, ∫ x, g v i x ∂μ := by
    intro g hg
    rw [integral_finsetSum _ fun v _ => integrable_finsetSum _ fun i _ => hg v i]
    exact Finset.sum_congr rfl fun v _ => integral_finsetSum _ fun i _ => hg v i
  rw [integral_const_mul, dsum k6, dsum kd, dsum k3, dsum k2, Finset.mul_sum, Finset.mul_sum, ← Finset.sum_add_distrib,
    ← Finset.sum_add_distrib]
  refine Finset.sum_congr rfl fun v _ => ?_
  rw [Finset.mul_sum, Finset.mul_sum, ← Finset.sum_add_distrib, ← Finset.sum_add_distrib]
  refine Finset.sum_congr rfl fun i _ => ?_
  have t1 := nht_transport hl hf v i (J := J)
  have t2 := nht_friction hl hf v i (J := J)
  have t3 := nht_thermostat hl hf v i (k v i)
  rw [integral_add (k0 v i) (kd v i)] at t1
  have m1 : Integrable (fun x : (Lat I × Lat I) × Lat J => x.1.2 v i * fderiv ℝ f x (qd J v i) -
    A * (x.1.2 v i * fderiv ℝ f x (pdr J v i))) μ := (k0 v i).sub ((k2 v i).const_mul A)
  have m2 : Integrable (fun x : (Lat I × Lat I) × Lat J => x.1.2 v i * fderiv ℝ f x (qd J v i) -
    A * (x.1.2 v i * fderiv ℝ f x (pdr J v i)) - σ v * (x.2 v (k v i) * x.1.2 v i * fderiv ℝ f x (pdr J v i))) μ :=
    m1.sub ((k4 v i).const_mul (σ v))
  rw [integral_add m2 ((k5 v i).const_mul (σ v)), integral_sub m1 ((k4 v i).const_mul (σ v)),
    integral_sub (k0 v i) ((k2 v i).const_mul A), integral_const_mul, integral_const_mul, integral_const_mul]
  rw [t2]
  rw [t3]
  linarith

end ZhuSuan.Sgmcmc
