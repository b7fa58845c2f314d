import Verif.Lemmas.WeakNormal
import Verif.Spec.SgldLoop
import Verif.Model.Sgmcmc

/-!
# Euclidean geometry of the latent variables
-/

set_option autoImplicit false

open MeasureTheory ProbabilityTheory Filter Topology Set

open ZhuSuan.Sgmcmc

namespace ZhuSuan.SgWeak

variable {V : Type} {I : V → Type} [Fintype V] [∀ v, Fintype (I v)]

theorem nsq_eq (x : Lat I) : nsq x = dot x x := by simp [nsq, dot, sq]

theorem nsq_nonneg (x : Lat I) : 0 ≤ nsq x := Finset.sum_nonneg fun _ _ => Finset.sum_nonneg fun _ _ => sq_nonneg _

theorem dot_comm (x y : Lat I) : dot x y = dot y x := by simp only [dot, mul_comm]

theorem dot_add_left (x y z : Lat I) : dot (x + y) z = dot x z + dot y z := by
  simp [dot, add_mul, Finset.sum_add_distrib]

theorem dot_sub_left (x y z : Lat I) : dot (x - y) z = dot x z - dot y z := by
  simp [dot, sub_mul, Finset.sum_sub_distrib]

theorem dot_smul_left (c : ℝ) (x y : Lat I) : dot (c • x) y = c * dot x y := by
  simp [dot, mul_assoc, Finset.mul_sum]

theorem dot_add_right (x y z : Lat I) : dot x (y + z) = dot x y + dot x z := by
  rw [dot_comm, dot_add_left, dot_comm y, dot_comm z]

theorem dot_sub_right (x y z : Lat I) : dot x (y - z) = dot x y - dot x z := by
  rw [dot_comm, dot_sub_left, dot_comm y, dot_comm z]

theorem dot_smul_right (c : ℝ) (x y : Lat I) : dot x (c • y) = c * dot x y := by
  rw [dot_comm, dot_smul_left, dot_comm]

theorem nsq_add (x y : Lat I) : nsq (x + y) = nsq x + 2 * dot x y + nsq y := by
  simp only [nsq_eq, dot_add_left, dot_add_right, dot_comm y x]
  ring

theorem nsq_sub (x y : Lat I) : nsq (x - y) = nsq x - 2 * dot x y + nsq y := by
  simp only [nsq_eq, dot_sub_left, dot_sub_right, dot_comm y x]
  ring

theorem nsq_smul (c : ℝ) (x : Lat I) : nsq (c • x) = c ^ 2 * nsq x := by
  simp only [nsq_eq, dot_smul_left, dot_smul_right]
  ring

theorem nsq_neg (x : Lat I) : nsq (-x) = nsq x := by simp [nsq]

theorem nsq_sub_comm (x y : Lat I) : nsq (x - y) = nsq (y - x) := by rw [← nsq_neg, neg_sub]

@[simp] theorem nsq_zero : nsq (0 : Lat I) = 0 := by simp [nsq]

theorem two_dot_le {c : ℝ} (hc : 0 < c) (x y : Lat I) : 2 * dot x y ≤ c * nsq x + c⁻¹ * nsq y := by
  have h := nsq_nonneg (√c • x - (√c)⁻¹ • y)
  rw [nsq_sub, nsq_smul, nsq_smul, dot_smul_left, dot_smul_right, Real.sq_sqrt hc.le, inv_pow, Real.sq_sqrt hc.le,
    mul_inv_cancel_left₀ (Real.sqrt_ne_zero'.2 hc)] at h
  linarith

theorem young {c : ℝ} (hc : 0 < c) (x y : Lat I) : nsq (x + y) ≤ (1 + c) * nsq x + (1 + c⁻¹) * nsq y := by
  rw [nsq_add]
  linarith [two_dot_le hc x y]

theorem nsq_add_le (x y : Lat I) : nsq (x + y) ≤ 2 * nsq x + 2 * nsq y := by
  have := young one_pos x y
  norm_num at this
  exact this

theorem nsq_sub_le (x y : Lat I) : nsq (x - y) ≤ 2 * nsq x + 2 * nsq y := by
  rw [sub_eq_add_neg, ← nsq_neg y]
  exact nsq_add_le _ _

theorem dot_sq_le (x y : Lat I) : dot x y ^ 2 ≤ nsq x * nsq y := by
  simp only [dot, nsq, Finset.sum_sigma']
  exact Finset.sum_mul_sq_le_sq_mul_sq _ (fun a : Σ v, I v => x a.1 a.2) (fun a => y a.1 a.2)

theorem abs_dot_le (x y : Lat I) : |dot x y| ≤ √(nsq x) * √(nsq y) := by
  rw [← Real.sqrt_mul (nsq_nonneg x)]
  exact Real.abs_le_sqrt (dot_sq_le x y)

theorem comp_le_norm (z : Lat I) (v : V) (i : I v) : |z v i| ≤ ‖z‖ := (norm_le_pi_norm (z v) i).trans (norm_le_pi_norm z v)

theorem comp_sq_le (z : Lat I) (v : V) (i : I v) : z v i ^ 2 ≤ nsq z := by
  refine (Finset.single_le_sum (f := fun i => z v i ^ 2) (fun i _ => sq_nonneg _) (Finset.mem_univ i)).trans ?_
  exact Finset.single_le_sum (f := fun v => ∑ i, z v i ^ 2) (fun v _ => Finset.sum_nonneg fun i _ => sq_nonneg _)
    (Finset.mem_univ v)

theorem norm_le_sqrt (z : Lat I) : ‖z‖ ≤ √(nsq z) :=
  (pi_norm_le_iff_of_nonneg (Real.sqrt_nonneg _)).2 fun v => (pi_norm_le_iff_of_nonneg (Real.sqrt_nonneg _)).2 fun i =>
    Real.abs_le_sqrt (comp_sq_le z v i)

theorem norm_sq_le (z : Lat I) : ‖z‖ ^ 2 ≤ nsq z := (Real.le_sqrt (norm_nonneg _) (nsq_nonneg _)).1 (norm_le_sqrt z)

/-- The number of components. -/
noncomputable def dim (I : V → Type) [∀ v, Fintype (I v)] : ℝ := ∑ v, ∑ _i : I v, 1

theorem dim_nonneg : 0 ≤ dim I := Finset.sum_nonneg fun _ _ => Finset.sum_nonneg fun _ _ => zero_le_one

theorem nsq_le_norm (z : Lat I) : nsq z ≤ dim I * ‖z‖ ^ 2 := by
  rw [dim, Finset.sum_mul]
  refine Finset.sum_le_sum fun v _ => ?_
  rw [Finset.sum_mul]
  refine Finset.sum_le_sum fun i _ => ?_
  rw [one_mul, ← sq_abs]
  exact pow_le_pow_left₀ (abs_nonneg _) (comp_le_norm z v i) 2

theorem continuous_nsq : Continuous (nsq (I := I)) := by
  unfold nsq
  fun_prop

theorem continuous_dot : Continuous fun a : Lat I × Lat I => dot a.1 a.2 := by
  unfold dot
  fun_prop

section L2

variable {S : Type*} [MeasurableSpace S] {W : Measure S} {X Y : S → Lat I}

theorem nsq_int (hX : MemLp X 2 W) : Integrable (fun s => nsq (X s)) W := by
  refine ((hX.integrable_norm_pow (by norm_num)).const_mul (dim I)).mono' (continuous_nsq.comp_aestronglyMeasurable hX.1)
    (Eventually.of_forall fun s => ?_)
  rw [Real.norm_of_nonneg (nsq_nonneg _)]
  exact nsq_le_norm _

theorem dot_int (hX : MemLp X 2 W) (hY : MemLp Y 2 W) : Integrable (fun s => dot (X s) (Y s)) W := by
  have hm : AEStronglyMeasurable (fun s => dot (X s) (Y s)) W :=
    Continuous.comp_aestronglyMeasurable (g := fun a : Lat I × Lat I => dot a.1 a.2) (f := fun s => (X s, Y s)) continuous_dot
      (hX.1.prodMk hY.1)
  refine ((nsq_int hX).add (nsq_int hY)).mono' hm (Eventually.of_forall fun s => ?_)
  have h1 := nsq_nonneg (X s + Y s)
  have h2 := nsq_nonneg (X s - Y s)
  rw [nsq_add] at h1
  rw [nsq_sub] at h2
  have h3 := nsq_nonneg (X s)
  have h4 := nsq_nonneg (Y s)
  rw [Real.norm_eq_abs, abs_le]
  constructor <;> simp only [Pi.add_apply] <;> linarith

theorem memLp_of_nsq (hX : AEStronglyMeasurable X W) {f : S → ℝ} (hf : Integrable f W) (h : ∀ s, nsq (X s) ≤ f s) :
    MemLp X 2 W := by
  rw [memLp_two_iff_integrable_sq_norm hX]
  refine hf.mono' (hX.norm.pow 2) (Eventually.of_forall fun s => ?_)
  rw [Real.norm_of_nonneg (by positivity)]
  exact (norm_sq_le _).trans (h s)

end L2

theorem normals_nsq : ∫ z, nsq z ∂normals I = dim I := by
  unfold nsq dim
  have hi : ∀ v i, Integrable (fun z : Lat I => z v i ^ 2) (normals I) := fun v i => (comp_memLp v i 2).integrable_sq
  rw [integral_finsetSum _ fun v _ => integrable_finsetSum _ fun i _ => hi v i]
  refine Finset.sum_congr rfl fun v _ => ?_
  rw [integral_finsetSum _ fun i _ => hi v i]
  refine Finset.sum_congr rfl fun i _ => ?_
  simp only [sq]
  exact comp_sq v i

end ZhuSuan.SgWeak
