import Mathlib.MeasureTheory.Measure.Hausdorff
import Mathlib.Topology.MetricSpace.Contracting
import Verif.Lemmas.HmcReversible
import Verif.Lemmas.MarkovConv
import Verif.Spec.HmcConv

/-!
# Where one HMC step can go

If the force `g / mass` is Lipschitz with constant `K` and `K (n ε)² ≤ 1`, the end of the trajectory
depends on the starting momentum as an invertible map that, together with its inverse, is Lipschitz.
So the end of the trajectory has a positive density.
-/

set_option autoImplicit false

open MeasureTheory Set ProbabilityTheory
open scoped ENNReal NNReal

namespace ZhuSuan.Hmc

variable {ι : Type} [Fintype ι]

/-! ## A map close to a multiple of the identity -/

section Near

variable {f : (ι → ℝ) → ι → ℝ} {a : ℝ}

/-- `f` differs from `a` times the identity by a map with Lipschitz constant `a / 2`. -/
def Near (f : (ι → ℝ) → ι → ℝ) (a : ℝ) : Prop :=
  ∀ x y, ‖f x - f y - a • (x - y)‖ ≤ a / 2 * ‖x - y‖

theorem Near.surjective (ha : 0 < a) (h : Near f a) : Function.Surjective f := by
  intro y
  have hc : ContractingWith (1 / 2 : ℝ≥0) fun v => v - a⁻¹ • (f v - y) := by
    refine ⟨by norm_num, LipschitzWith.of_dist_le_mul fun v w => ?_⟩
    rw [dist_eq_norm, dist_eq_norm]
    have e : v - a⁻¹ • (f v - y) - (w - a⁻¹ • (f w - y)) = -(a⁻¹ • (f v - f w - a • (v - w))) := by
      rw [smul_sub a⁻¹ (f v - f w), smul_smul, inv_mul_cancel₀ ha.ne', one_smul]
      module
    rw [e, norm_neg, norm_smul, Real.norm_of_nonneg (inv_nonneg.2 ha.le)]
    calc a⁻¹ * ‖f v - f w - a • (v - w)‖ ≤ a⁻¹ * (a / 2 * ‖v - w‖) :=
          mul_le_mul_of_nonneg_left (h v w) (inv_nonneg.2 ha.le)
      _ = (1 / 2) * ‖v - w‖ := by field_simp
      _ = _ := by norm_num
  have hfix := hc.fixedPoint_isFixedPt
  refine ⟨ContractingWith.fixedPoint _ hc, ?_⟩
  have h1 : a⁻¹ • (f (ContractingWith.fixedPoint _ hc) - y) = 0 := by
    have := hfix
    rw [Function.IsFixedPt] at this
    simpa using this
  rw [smul_eq_zero] at h1
  exact sub_eq_zero.1 (h1.resolve_left (inv_ne_zero ha.ne'))

theorem Near.lipschitz (ha : 0 < a) (h : Near f a) : LipschitzWith (Real.toNNReal (2 * a)) f := by
  refine LipschitzWith.of_dist_le_mul fun x y => ?_
  rw [dist_eq_norm, dist_eq_norm, Real.coe_toNNReal _ (by linarith)]
  have h1 : f x - f y = (f x - f y - a • (x - y)) + a • (x - y) := by abel
  rw [h1]
  refine (norm_add_le _ _).trans ?_
  rw [norm_smul, Real.norm_of_nonneg ha.le]
  have := h x y
  nlinarith [norm_nonneg (x - y)]

theorem Near.antilipschitz (ha : 0 < a) (h : Near f a) : AntilipschitzWith (Real.toNNReal (2 / a)) f := by
  refine AntilipschitzWith.of_le_mul_dist fun x y => ?_
  rw [dist_eq_norm, dist_eq_norm, Real.coe_toNNReal _ (by positivity)]
  have h1 : a • (x - y) = (f x - f y) - (f x - f y - a • (x - y)) := by abel
  have h2 : a * ‖x - y‖ ≤ ‖f x - f y‖ + a / 2 * ‖x - y‖ := by
    calc a * ‖x - y‖ = ‖a • (x - y)‖ := by rw [norm_smul, Real.norm_of_nonneg ha.le]
      _ = ‖(f x - f y) - (f x - f y - a • (x - y))‖ := by rw [← h1]
      _ ≤ _ := (norm_sub_le _ _).trans (by linarith [h x y])
  have h3 : a / 2 * ‖x - y‖ ≤ ‖f x - f y‖ := by linarith
  rw [div_mul_eq_mul_div, le_div_iff₀ ha]
  linarith

end Near

/-- A map that is onto, Lipschitz, and whose inverse is Lipschitz. -/
def BiLip (f : (ι → ℝ) → ι → ℝ) : Prop :=
  Function.Surjective f ∧ (∃ K, LipschitzWith K f) ∧ ∃ K, AntilipschitzWith K f

theorem Near.biLip {f : (ι → ℝ) → ι → ℝ} {a : ℝ} (ha : 0 < a) (h : Near f a) : BiLip f :=
  ⟨h.surjective ha, ⟨_, h.lipschitz ha⟩, ⟨_, h.antilipschitz ha⟩⟩

theorem BiLip.comp {f g : (ι → ℝ) → ι → ℝ} (hf : BiLip f) (hg : BiLip g) : BiLip (f ∘ g) := by
  obtain ⟨s1, ⟨K1, l1⟩, ⟨L1, a1⟩⟩ := hf
  obtain ⟨s2, ⟨K2, l2⟩, ⟨L2, a2⟩⟩ := hg
  exact ⟨s1.comp s2, ⟨_, l1.comp l2⟩, ⟨_, a1.comp a2⟩⟩

theorem biLip_scale (s : ι → ℝ) (hs : ∀ i, 0 < s i) : BiLip fun (x : ι → ℝ) i => x i * s i := by
  have key : ∀ s : ι → ℝ, ∃ K, LipschitzWith K fun (x : ι → ℝ) i => x i * s i := by
    intro s
    refine ⟨‖s‖₊, LipschitzWith.of_dist_le_mul fun x y => ?_⟩
    rw [dist_pi_le_iff (by positivity)]
    intro i
    rw [Real.dist_eq, ← sub_mul, abs_mul, mul_comm]
    exact mul_le_mul (norm_le_pi_norm s i) (dist_le_pi_dist x y i) (abs_nonneg _) (norm_nonneg _)
  refine ⟨fun y => ⟨fun i => y i / s i, funext fun i => div_mul_cancel₀ _ (hs i).ne'⟩, key s, ?_⟩
  obtain ⟨K, hK⟩ := key fun i => 1 / s i
  refine ⟨K, AntilipschitzWith.of_le_mul_dist fun x y => ?_⟩
  have h := hK.dist_le_mul (fun i => x i * s i) (fun i => y i * s i)
  have e : ∀ x : ι → ℝ, (fun i => x i * s i * (1 / s i)) = x := fun x => funext fun i => by
    have := (hs i).ne'
    field_simp
  simpa only [e] using h

/-- Such a map neither loses nor creates null sets. -/
theorem BiLip.null_iff {f : (ι → ℝ) → ι → ℝ} (hf : BiLip f) (A : Set (ι → ℝ)) :
    volume (f ⁻¹' A) = 0 ↔ volume A = 0 := by
  obtain ⟨s, ⟨K, l⟩, ⟨L, a⟩⟩ := hf
  constructor
  · intro h
    have h1 := l.hausdorffMeasure_image_le (Nat.cast_nonneg (Fintype.card ι)) (f ⁻¹' A)
    rw [image_preimage_eq A s, hausdorffMeasure_pi_real, h, mul_zero] at h1
    exact nonpos_iff_eq_zero.1 h1
  · intro h
    have h1 := a.hausdorffMeasure_preimage_le (Nat.cast_nonneg (Fintype.card ι)) A
    rw [hausdorffMeasure_pi_real, h, mul_zero] at h1
    exact nonpos_iff_eq_zero.1 h1

/-! ## The trajectory -/

section Leap

variable (mass : ι → ℝ) (g : (ι → ℝ) → ι → ℝ) (eps : ℝ)

/-- Positions and momenta (half a step ahead) along the trajectory. -/
noncomputable def traj (q p : ι → ℝ) : ℕ → (ι → ℝ) × (ι → ℝ)
  | 0 => (q, fun i => p i + eps / 2 * g q i)
  | k + 1 =>
    let x := traj q p k
    let q' : ι → ℝ := fun i => x.1 i + eps * (x.2 i / mass i)
    (q', fun i => x.2 i + eps * g q' i)

omit [Fintype ι] in
theorem leap1_traj (n : ℕ) (q p : ι → ℝ) : (leap1 mass g (n + 1) eps (q, p)).1 = (traj mass g eps q p (n + 1)).1 := by
  simp only [leap1, leapfrog_succ]
  set gr : (Unit → ι → ℝ) → Unit → ι → ℝ := fun q _ => g (q ()) with hgr
  have h : ∀ k, (fun y => kick gr eps (drift mass eps y))^[k]
      (kick gr (eps / 2) (fun _ => q, fun _ => p)) =
      (fun _ => (traj mass g eps q p k).1, fun _ => (traj mass g eps q p k).2) := by
    intro k
    induction k with
    | zero => rfl
    | succ k ih => rw [Function.iterate_succ_apply', ih]; rfl
  rw [h n]
  rfl

variable {K : ℝ} (hm : ∀ i, 0 < mass i) (hK : 0 ≤ K) (he : 0 < eps)
  (hg : ∀ x y : ι → ℝ, ‖fun i => (g x i - g y i) / mass i‖ ≤ K * ‖x - y‖)

include hm hK he hg in
theorem traj_near (n : ℕ) (hn : K * (n * eps) ^ 2 ≤ 1) (q v v' : ι → ℝ) (k : ℕ) (hk : k ≤ n) :
    ‖(traj mass g eps q (fun i => v i * mass i) k).1 - (traj mass g eps q (fun i => v' i * mass i) k).1 -
        (k * eps) • (v - v')‖ ≤ 1 / 2 * (k : ℝ) ^ 3 * eps ^ 3 * K * ‖v - v'‖ ∧
    ‖(fun i => (traj mass g eps q (fun i => v i * mass i) k).2 i / mass i) -
        (fun i => (traj mass g eps q (fun i => v' i * mass i) k).2 i / mass i) - (v - v')‖ ≤
      3 / 2 * (k : ℝ) ^ 2 * eps ^ 2 * K * ‖v - v'‖ := by
  induction k with
  | zero =>
    constructor
    · simp [traj]
    · have : (fun i => (traj mass g eps q (fun i => v i * mass i) 0).2 i / mass i) -
          (fun i => (traj mass g eps q (fun i => v' i * mass i) 0).2 i / mass i) - (v - v') = 0 := by
        funext i
        have := (hm i).ne'
        simp only [traj, Pi.sub_apply, Pi.zero_apply]
        field_simp
        ring
      rw [this]; simp
  | succ k ih =>
    obtain ⟨i1, i2⟩ := ih (by omega)
    set Q := (traj mass g eps q (fun i => v i * mass i) k).1 with hQ
    set Q' := (traj mass g eps q (fun i => v' i * mass i) k).1 with hQ'
    set V : ι → ℝ := fun i => (traj mass g eps q (fun i => v i * mass i) k).2 i / mass i with hV
    set V' : ι → ℝ := fun i => (traj mass g eps q (fun i => v' i * mass i) k).2 i / mass i with hV'
    set R := (traj mass g eps q (fun i => v i * mass i) (k + 1)).1 with hR
    set R' := (traj mass g eps q (fun i => v' i * mass i) (k + 1)).1 with hR'
    have eR : R = Q + eps • V := rfl
    have eR' : R' = Q' + eps • V' := rfl
    set D := ‖v - v'‖ with hD
    have hD0 : 0 ≤ D := norm_nonneg _
    have hk0 : (0 : ℝ) ≤ k := Nat.cast_nonneg k
    have hkn : (k : ℝ) + 1 ≤ n := by exact_mod_cast hk
    have hsm : K * (((k : ℝ) + 1) * eps) ^ 2 ≤ 1 := by
      refine le_trans (mul_le_mul_of_nonneg_left ?_ hK) hn
      exact pow_le_pow_left₀ (by positivity) (mul_le_mul_of_nonneg_right hkn he.le) 2
    have hA : ‖R - R' - (((k + 1 : ℕ) : ℝ) * eps) • (v - v')‖ ≤
        1 / 2 * ((k + 1 : ℕ) : ℝ) ^ 3 * eps ^ 3 * K * D := by
      have e : R - R' - (((k + 1 : ℕ) : ℝ) * eps) • (v - v') =
          (Q - Q' - (k * eps) • (v - v')) + eps • (V - V' - (v - v')) := by
        rw [eR, eR']; push_cast; module
      rw [e]
      refine (norm_add_le _ _).trans ?_
      rw [norm_smul, Real.norm_of_nonneg he.le]
      have h1 := mul_le_mul_of_nonneg_left i2 he.le
      push_cast
      have h2 : (0 : ℝ) ≤ eps ^ 3 * K * D := by positivity
      nlinarith [i1, h1, mul_nonneg h2 hk0]
    refine ⟨hA, ?_⟩
    have e2 : (fun i => (traj mass g eps q (fun i => v i * mass i) (k + 1)).2 i / mass i) -
        (fun i => (traj mass g eps q (fun i => v' i * mass i) (k + 1)).2 i / mass i) - (v - v') =
        (V - V' - (v - v')) + eps • fun i => (g R i - g R' i) / mass i := by
      funext i
      have := (hm i).ne'
      show ((traj mass g eps q (fun i => v i * mass i) k).2 i + eps * g R i) / mass i -
        ((traj mass g eps q (fun i => v' i * mass i) k).2 i + eps * g R' i) / mass i - (v i - v' i) =
        ((traj mass g eps q (fun i => v i * mass i) k).2 i / mass i -
          (traj mass g eps q (fun i => v' i * mass i) k).2 i / mass i - (v i - v' i)) +
          eps * ((g R i - g R' i) / mass i)
      field_simp
      ring
    rw [e2]
    refine (norm_add_le _ _).trans ?_
    rw [norm_smul, Real.norm_of_nonneg he.le]
    have hRR : ‖R - R'‖ ≤ 1 / 2 * ((k : ℝ) + 1) ^ 3 * eps ^ 3 * K * D + ((k : ℝ) + 1) * eps * D := by
      have e : R - R' = (R - R' - (((k + 1 : ℕ) : ℝ) * eps) • (v - v')) + (((k + 1 : ℕ) : ℝ) * eps) • (v - v') := by
        abel
      rw [e]
      refine (norm_add_le _ _).trans ?_
      rw [norm_smul, Real.norm_of_nonneg (by positivity)]
      push_cast at hA ⊢
      linarith
    have h3 : eps * ‖fun i => (g R i - g R' i) / mass i‖ ≤
        eps * (K * (1 / 2 * ((k : ℝ) + 1) ^ 3 * eps ^ 3 * K * D + ((k : ℝ) + 1) * eps * D)) :=
      mul_le_mul_of_nonneg_left ((hg R R').trans (mul_le_mul_of_nonneg_left hRR hK)) he.le
    have h4 : eps * (K * (1 / 2 * ((k : ℝ) + 1) ^ 3 * eps ^ 3 * K * D + ((k : ℝ) + 1) * eps * D)) =
        (1 / 2 * (K * (((k : ℝ) + 1) * eps) ^ 2) + 1) * (((k : ℝ) + 1) * eps ^ 2 * K * D) := by ring
    have h5 : (0 : ℝ) ≤ ((k : ℝ) + 1) * eps ^ 2 * K * D := by positivity
    have h6 : (1 / 2 * (K * (((k : ℝ) + 1) * eps) ^ 2) + 1) * (((k : ℝ) + 1) * eps ^ 2 * K * D) ≤
        3 / 2 * (((k : ℝ) + 1) * eps ^ 2 * K * D) := mul_le_mul_of_nonneg_right (by linarith) h5
    have h7 : (0 : ℝ) ≤ k * (eps ^ 2 * K * D) := by positivity
    push_cast
    nlinarith [i2, h3, h6, h7]

include hm hK he hg in
/-- The end of the trajectory, as a function of the standard normal draw. -/
theorem leap1_biLip (n : ℕ) (hn0 : 0 < n) (hn : K * (n * eps) ^ 2 ≤ 1) (q : ι → ℝ) :
    BiLip fun z : ι → ℝ => (leap1 mass g n eps (q, fun i => z i * Real.sqrt (mass i))).1 := by
  obtain ⟨n, rfl⟩ : ∃ m, n = m + 1 := ⟨n - 1, by omega⟩
  have hna : (0 : ℝ) < ((n + 1 : ℕ) : ℝ) * eps := by positivity
  have h1 : Near (fun v : ι → ℝ => (leap1 mass g (n + 1) eps (q, fun i => v i * mass i)).1)
      (((n + 1 : ℕ) : ℝ) * eps) := by
    intro v v'
    simp only [leap1_traj]
    have h := (traj_near mass g eps hm hK he hg (n + 1) hn q v v' (n + 1) le_rfl).1
    refine h.trans ?_
    have e : 1 / 2 * ((n + 1 : ℕ) : ℝ) ^ 3 * eps ^ 3 * K * ‖v - v'‖ =
        (K * (((n + 1 : ℕ) : ℝ) * eps) ^ 2) * (((n + 1 : ℕ) : ℝ) * eps / 2 * ‖v - v'‖) := by ring
    rw [e]
    calc _ ≤ 1 * (((n + 1 : ℕ) : ℝ) * eps / 2 * ‖v - v'‖) :=
          mul_le_mul_of_nonneg_right hn (by positivity)
      _ = _ := one_mul _
  have h2 := (h1.biLip hna).comp (biLip_scale (fun i => 1 / Real.sqrt (mass i))
    fun i => one_div_pos.2 (Real.sqrt_pos.2 (hm i)))
  convert h2 using 1
  funext z
  simp only [Function.comp]
  congr 3
  funext i
  rw [mul_assoc, one_div_mul_eq_div, Real.div_sqrt]

end Leap

/-! ## One step of the chain -/

section Step

variable (mass : ι → ℝ) (g : (ι → ℝ) → ι → ℝ) (l : (ι → ℝ) → ℝ) (n : ℕ) (eps : ℝ)

/-- The draws of one step: a standard normal vector and a uniform number. -/
noncomputable def noise1 (ι : Type) [Fintype ι] : Measure ((ι → ℝ) × ℝ) :=
  (Measure.pi fun _ : ι => gaussianReal 0 1).prod unif

instance : IsProbabilityMeasure unif := ⟨by simp [unif]⟩

instance : IsProbabilityMeasure (noise1 ι) := by unfold noise1; infer_instance

/-- One step from the draws. -/
noncomputable def drawStep (q : ι → ℝ) (w : (ι → ℝ) × ℝ) : ι → ℝ :=
  chainStep mass g l n eps q (fun i => w.1 i * Real.sqrt (mass i)) w.2

theorem measurable_drawStep (hg : Measurable g) (hl : Measurable l) :
    Measurable fun w : (ι → ℝ) × ((ι → ℝ) × ℝ) => drawStep mass g l n eps w.1 w.2 := by
  have mz : Measurable fun w : (ι → ℝ) × (ι → ℝ) × ℝ =>
      (w.1, (fun i => w.2.1 i * Real.sqrt (mass i) : ι → ℝ), w.2.2) := by fun_prop
  exact (measurable_chainStep mass g l n eps hg hl).comp mz

/-- The normal law has the same null sets as the volume. -/
theorem gauss_null_iff (A : Set (ι → ℝ)) :
    (Measure.pi fun _ : ι => gaussianReal 0 1) A = 0 ↔ volume A = 0 := by
  obtain ⟨c, hc⟩ := momentum_law (ι := ι) (fun _ => 1) (fun _ => one_pos)
  have e : (fun (z : ι → ℝ) i => z i * Real.sqrt 1) = id := by funext z i; simp
  rw [e, Measure.map_id] at hc
  have hc0 : c ≠ 0 := by
    rintro rfl
    have h1 : (Measure.pi fun _ : ι => gaussianReal 0 1) univ = 1 := measure_univ
    rw [hc] at h1
    simp at h1
  have md : Measurable fun p : ι → ℝ => c * ENNReal.ofReal (Real.exp (-(0.5 * ∑ i, p i * p i / 1))) := by
    fun_prop
  rw [hc, withDensity_apply_eq_zero md]
  have : {x : ι → ℝ | c * ENNReal.ofReal (Real.exp (-(0.5 * ∑ i, x i * x i / 1))) ≠ 0} = univ := by
    refine eq_univ_of_forall fun x => ?_
    exact mul_ne_zero hc0 (ENNReal.ofReal_pos.2 (Real.exp_pos _)).ne'
  rw [this, univ_inter]

/-- A positive threshold is met with positive probability. -/
theorem unif_pos {t : ℝ} (ht : 0 < t) : unif {u | u < t} ≠ 0 := by
  have hs : Ico 0 (min t 1) ⊆ {u | u < t} ∩ Ico 0 1 := fun u hu =>
    ⟨hu.2.trans_le (min_le_left _ _), hu.1, hu.2.trans_le (min_le_right _ _)⟩
  have h1 : volume (Ico (0 : ℝ) (min t 1)) ≠ 0 := by
    rw [Real.volume_Ico, sub_zero]
    exact (ENNReal.ofReal_pos.2 (lt_min ht one_pos)).ne'
  rw [unif, Measure.restrict_apply (show MeasurableSet {u : ℝ | u < t} from measurableSet_Iio)]
  exact fun h => h1 (measure_mono_null hs h)

/-- The step is accepted. -/
def accepted (q : ι → ℝ) : Set ((ι → ℝ) × ℝ) :=
  {w | w.2 < Real.exp (min (energy mass l (q, fun i => w.1 i * Real.sqrt (mass i)) -
    energy mass l (leap1 mass g n eps (q, fun i => w.1 i * Real.sqrt (mass i)))) 0)}

theorem measurableSet_accepted (hg : Measurable g) (hl : Measurable l) (q : ι → ℝ) :
    MeasurableSet (accepted mass g l n eps q) := by
  have mz : Measurable fun w : (ι → ℝ) × ℝ => (q, (fun i => w.1 i * Real.sqrt (mass i) : ι → ℝ)) := by fun_prop
  have mE := measurable_energy mass l hl
  have mL := (measurePreserving_leap1 mass g n eps hg).measurable
  exact measurableSet_lt measurable_snd
    (Real.measurable_exp.comp (((mE.comp mz).sub (mE.comp (mL.comp mz))).min measurable_const))

theorem drawStep_accepted {q : ι → ℝ} {w : (ι → ℝ) × ℝ} (h : w ∈ accepted mass g l n eps q) :
    drawStep mass g l n eps q w = (leap1 mass g n eps (q, fun i => w.1 i * Real.sqrt (mass i))).1 := if_pos h

theorem drawStep_rejected {q : ι → ℝ} {w : (ι → ℝ) × ℝ} (h : w ∉ accepted mass g l n eps q) :
    drawStep mass g l n eps q w = q := if_neg h

/-- A set of draws that contains, for every normal draw in `B`, all accepted ones, is not null unless `B` is. -/
theorem null_of_accepted {q : ι → ℝ} {B : Set (ι → ℝ)} {S : Set ((ι → ℝ) × ℝ)} (hS : MeasurableSet S)
    (hsub : ∀ w ∈ accepted mass g l n eps q, w.1 ∈ B → w ∈ S) (h0 : noise1 ι S = 0) :
    (Measure.pi fun _ : ι => gaussianReal 0 1) B = 0 := by
  rw [noise1, Measure.measure_prod_null hS] at h0
  have h1 : ∀ᵐ z ∂(Measure.pi fun _ : ι => gaussianReal 0 1), z ∉ B := by
    filter_upwards [h0] with z hz hB
    refine unif_pos (Real.exp_pos (min (energy mass l (q, fun i => z i * Real.sqrt (mass i)) -
        energy mass l (leap1 mass g n eps (q, fun i => z i * Real.sqrt (mass i)))) 0))
      (measure_mono_null (fun u hu => ?_) hz)
    exact hsub (z, u) hu hB
  rw [ae_iff] at h1
  simpa using h1

theorem target_univ : target l univ = ∫⁻ q, ENNReal.ofReal (Real.exp (l q)) := by
  rw [target, withDensity_apply _ MeasurableSet.univ, Measure.restrict_univ]

theorem mass_ne_zero (hl : Measurable l) : ∫⁻ q, ENNReal.ofReal (Real.exp (l q)) ≠ 0 := by
  intro h
  rw [lintegral_eq_zero_iff (by fun_prop)] at h
  have h1 : ∀ᵐ _ : ι → ℝ, False := h.mono fun q hq => by
    have : (0 : ℝ≥0∞) < ENNReal.ofReal (Real.exp (l q)) := ENNReal.ofReal_pos.2 (Real.exp_pos _)
    exact this.ne' hq
  rw [Filter.eventually_false_iff_eq_bot, ae_eq_bot] at h1
  exact NeZero.ne (volume : Measure (ι → ℝ)) h1

theorem posterior_null_iff (hl : Measurable l) (hfin : ∫⁻ q, ENNReal.ofReal (Real.exp (l q)) ≠ ∞)
    (A : Set (ι → ℝ)) : posterior l A = 0 ↔ volume A = 0 := by
  have ml : Measurable fun q => ENNReal.ofReal (Real.exp (l q)) := by fun_prop
  rw [posterior, Measure.smul_apply, smul_eq_mul, mul_eq_zero, or_iff_right (ENNReal.inv_ne_zero.2 hfin),
    withDensity_apply_eq_zero ml]
  have : {x : ι → ℝ | ENNReal.ofReal (Real.exp (l x)) ≠ 0} = univ :=
    eq_univ_of_forall fun x => (ENNReal.ofReal_pos.2 (Real.exp_pos _)).ne'
  rw [this, univ_inter]

theorem posterior_prob (hl : Measurable l) (hfin : ∫⁻ q, ENNReal.ofReal (Real.exp (l q)) ≠ ∞) :
    IsProbabilityMeasure (posterior l) := ⟨by
  rw [posterior, Measure.smul_apply, show (volume.withDensity fun q => ENNReal.ofReal (Real.exp (l q))) univ = _ from
    target_univ l, smul_eq_mul, ENNReal.inv_mul_cancel (mass_ne_zero l hl) hfin]⟩

theorem balanced (hg : Measurable g) (hl : Measurable l) (hm : ∀ i, 0 < mass i) :
    MarkovConv.Balanced (drawStep mass g l n eps) (noise1 ι) (posterior l) := by
  have h := chain_reversible mass g l n eps hg hl hm
  rw [MarkovConv.Balanced, posterior, Measure.prod_smul_left, Measure.map_smul, Measure.map_smul]
  exact congrArg _ h

variable {K : ℝ} (hm : ∀ i, 0 < mass i) (hK : 0 ≤ K) (he : 0 < eps)
  (hLip : ∀ x y : ι → ℝ, ‖fun i => (g x i - g y i) / mass i‖ ≤ K * ‖x - y‖) (hn0 : 0 < n)
  (hn : K * (n * eps) ^ 2 ≤ 1) (hg : Measurable g) (hl : Measurable l)
  (hfin : ∫⁻ q, ENNReal.ofReal (Real.exp (l q)) ≠ ∞)

include hm hK he hLip hn0 hn hg hl hfin in
theorem reaches : MarkovConv.Reaches (drawStep mass g l n eps) (noise1 ι) (posterior l) := by
  intro q A hA h0
  rw [posterior_null_iff l hl hfin]
  have hb := leap1_biLip mass g eps hm hK he hLip n hn0 hn q
  have mS : MeasurableSet {w | drawStep mass g l n eps q w ∈ A} :=
    ((measurable_drawStep mass g l n eps hg hl).comp measurable_prodMk_left) hA
  have h1 := null_of_accepted mass g l n eps (q := q)
    (B := {z | (leap1 mass g n eps (q, fun i => z i * Real.sqrt (mass i))).1 ∈ A}) mS
    (fun w hw hB => by
      show drawStep mass g l n eps q w ∈ A
      rw [drawStep_accepted mass g l n eps hw]; exact hB) h0
  rw [gauss_null_iff] at h1
  exact (hb.null_iff A).1 h1

include hm hK he hLip hn0 hn hg hl hfin in
theorem spreads (q : ι → ℝ) : MarkovConv.Spreads (drawStep mass g l n eps) (noise1 ι) (posterior l) q := by
  have hb := leap1_biLip mass g eps hm hK he hLip n hn0 hn q
  have mT : Measurable (drawStep mass g l n eps q) :=
    (measurable_drawStep mass g l n eps hg hl).comp measurable_prodMk_left
  have mA := measurableSet_accepted mass g l n eps hg hl q
  set a := accepted mass g l n eps q with ha
  refine ⟨noise1 ι aᶜ, ((noise1 ι).restrict a).map (drawStep mass g l n eps q), ?_, ?_, ?_⟩
  · have hpos : noise1 ι a ≠ 0 := by
      intro h0
      have h1 := null_of_accepted mass g l n eps (q := q) (B := univ) mA (fun w hw _ => hw) h0
      simp at h1
    rw [prob_compl_eq_one_sub mA]
    exact ENNReal.sub_lt_self ENNReal.one_ne_top one_ne_zero hpos
  · refine Measure.AbsolutelyContinuous.mk fun A hA h0 => ?_
    rw [posterior_null_iff l hl hfin] at h0
    rw [Measure.map_apply mT hA, Measure.restrict_apply (mT hA)]
    have h1 : (Measure.pi fun _ : ι => gaussianReal 0 1)
        {z | (leap1 mass g n eps (q, fun i => z i * Real.sqrt (mass i))).1 ∈ A} = 0 := by
      rw [gauss_null_iff]
      exact (hb.null_iff A).2 h0
    refine measure_mono_null (t := {z | (leap1 mass g n eps (q, fun i => z i * Real.sqrt (mass i))).1 ∈ A} ×ˢ univ)
      (fun w hw => ⟨?_, mem_univ _⟩) ?_
    · have := hw.1
      rw [mem_preimage, drawStep_accepted mass g l n eps hw.2] at this
      exact this
    · rw [noise1, Measure.prod_prod, h1, zero_mul]
  · ext A hA
    rw [Measure.map_apply mT hA, Measure.add_apply, Measure.smul_apply, Measure.map_apply mT hA,
      Measure.restrict_apply (mT hA), ← measure_inter_add_sdiff _ mA, add_comm, smul_eq_mul]
    congr 1
    rw [Measure.dirac_apply' _ hA]
    by_cases hq : q ∈ A
    · rw [indicator_of_mem hq, Pi.one_apply, mul_one]
      congr 1
      ext w
      constructor
      · exact fun h => h.2
      · exact fun h => ⟨by rw [mem_preimage, drawStep_rejected mass g l n eps h]; exact hq, h⟩
    · rw [indicator_of_notMem hq, mul_zero]
      refine measure_mono_null (t := ∅) (fun w hw => ?_) measure_empty
      have := hw.1
      rw [mem_preimage, drawStep_rejected mass g l n eps hw.2] at this
      exact hq this

include hm hK he hLip hn0 hn hg hl hfin in
/-- One chain, from any start: the law after many steps is the posterior, evenly over all events. -/
theorem chain_converges (q : ι → ℝ) : ∀ δ > 0, ∃ k0, ∀ k ≥ k0, ∀ A, MeasurableSet A →
    |((MarkovConv.step (drawStep mass g l n eps) (noise1 ι))^[k] (Measure.dirac q)).real A - (posterior l).real A|
      ≤ δ := by
  have := posterior_prob l hl hfin
  exact MarkovConv.tv_point (measurable_drawStep mass g l n eps hg hl) (balanced mass g l n eps hg hl hm)
    (reaches mass g l n eps hm hK he hLip hn0 hn hg hl hfin) q
    (spreads mass g l n eps hm hK he hLip hn0 hn hg hl hfin q)

end Step

end ZhuSuan.Hmc
