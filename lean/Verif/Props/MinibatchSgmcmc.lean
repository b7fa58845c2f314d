import Verif.Props.Minibatch
import Verif.Props.SgmcmcWeakHmc
import Mathlib.Analysis.SpecialFunctions.Sigmoid

/-!
# C92: stochastic gradient samplers on minibatches

The loop of `examples/bayesian_neural_nets/bnn_sgmcmc.py`: every iteration runs the sampler with the log joint of a batch.  With
C90 the target is the posterior given all the data.
-/

set_option autoImplicit false

open MeasureTheory ProbabilityTheory Filter Topology Set
open ZhuSuan.SgWeak ZhuSuan.Weak ZhuSuan.Sgmcmc

namespace ZhuSuan.Minibatch

variable {X Y : Type} {n : ℕ} {V : Type} {I : V → Type} [Fintype V] [∀ v, Fintype (I v)]

/-- The log joint of all the data. -/
def full (s : Arrays n X Y) (prior : Lat I → ℝ) (lik : X × Y → Lat I → ℝ) (w : Lat I) : ℝ :=
  prior w + ∑ i, lik (s.x i, s.y i) w

/-- The gradient estimate of iteration `t` when the rows are shuffled with `σ`. -/
noncomputable def batchGrad (s : Arrays n X Y) (perms : List (Equiv.Perm (Fin n))) (b t : ℕ) (prior : Lat I → ℝ)
    (lik : X × Y → Lat I → ℝ) (σ : Equiv.Perm (Fin n)) : Lat I → Lat I :=
  pd (logJoint n prior lik (((s.epochs perms).permute σ).feed b t))

theorem sum_hasFDerivAt {D : Type} (l : List D) {g : D → Lat I → ℝ} (hg : ∀ d, ContDiff ℝ 1 (g d)) (x : Lat I) :
    HasFDerivAt (fun w => (l.map fun d => g d w).sum) (l.map fun d => fderiv ℝ (g d) x).sum x := by
  induction l with
  | nil => simpa using hasFDerivAt_const (0 : ℝ) x
  | cons d l ih =>
    simp only [List.map_cons, List.sum_cons]
    exact ((hg d).differentiable (by norm_num) x).hasFDerivAt.add ih

theorem sum_clm_apply (l : List (Lat I →L[ℝ] ℝ)) (u : Lat I) : l.sum u = (l.map fun L => L u).sum := by
  induction l with
  | nil => rfl
  | cons L l ih => simp [ih]

/-- The gradient of the log joint of a batch is the one that the same formula gives from the gradients of its terms. -/
theorem pd_logJoint {D : Type} {prior : Lat I → ℝ} {lik : D → Lat I → ℝ} (hp : ContDiff ℝ 1 prior) (hk : ∀ d, ContDiff ℝ 1 (lik d))
    (fed : List D) (x : Lat I) (v : V) (i : I v) :
    pd (logJoint n prior lik fed) x v i = logJoint n (fun w => pd prior w v i) (fun d w => pd (lik d) w v i) fed x := by
  have h1 := ((sum_hasFDerivAt fed hk x).mul_const ((fed.length : ℝ)⁻¹)).mul_const (n : ℝ)
  have h2 := (((hp.differentiable (by norm_num)) x).hasFDerivAt.add h1).fderiv
  have e : logJoint n prior lik fed = prior + fun w => (fed.map fun d => lik d w).sum * (fed.length : ℝ)⁻¹ * n := by
    ext w
    simp only [logJoint, mean, List.length_map, Pi.add_apply, div_eq_mul_inv]
  rw [pd, e, h2]
  simp only [_root_.add_apply, _root_.smul_apply, smul_eq_mul, sum_clm_apply, List.map_map, logJoint, mean, List.length_map,
    Function.comp_def, pd]
  ring

theorem mean_abs_le {l : List ℝ} {K : ℝ} (hK : 0 ≤ K) (h : ∀ a ∈ l, |a| ≤ K) : |mean l| ≤ K := by
  have h1 : |l.sum| ≤ l.length * K := by
    induction l with
    | nil => simp
    | cons a l ih =>
      rw [List.sum_cons, List.length_cons]
      have h2 := h a (by simp)
      have h3 := ih fun a ha => h a (by simp [ha])
      refine (abs_add_le _ _).trans ?_
      push_cast
      linarith
  unfold mean
  rcases Nat.eq_zero_or_pos l.length with h0 | h0
  · rw [h0]
    simpa using hK
  · rw [abs_div, Nat.abs_cast, div_le_iff₀ (by exact_mod_cast h0)]
    linarith

theorem fed_mem (s : Arrays n X Y) (perms : List (Equiv.Perm (Fin n))) (b t : ℕ) (σ : Equiv.Perm (Fin n)) {d : X × Y}
    (hd : d ∈ ((s.epochs perms).permute σ).feed b t) : ∃ i, d = (s.x i, s.y i) := by
  rw [feed_eq, batch_map, epochs_eq] at hd
  obtain ⟨i, -, rfl⟩ := List.mem_map.1 hd
  exact ⟨_, rfl⟩

theorem batchGrad_unbiased (s : Arrays n X Y) (perms : List (Equiv.Perm (Fin n))) {b t : ℕ} (hb : 0 < b) (ht : t < itersUp n b)
    {prior : Lat I → ℝ} {lik : X × Y → Lat I → ℝ} (hp : ContDiff ℝ 1 prior) (hk : ∀ d, ContDiff ℝ 1 (lik d)) :
    Unbiased (uniform n) (batchGrad s perms b t prior lik) (full s prior lik) := by
  intro x v i
  refine ⟨uniform_int _, ?_⟩
  simp only [batchGrad, pd_logJoint hp hk]
  rw [C92_unbiased s perms b t hb ht]
  have h := (((hp.differentiable (by norm_num)) x).hasFDerivAt.add
    (HasFDerivAt.fun_sum (u := Finset.univ) fun i _ => ((hk (s.x i, s.y i)).differentiable (by norm_num) x).hasFDerivAt)).fderiv
  have h' : fderiv ℝ (full s prior lik) x = _ := h
  rw [show pd (full s prior lik) x v i = fderiv ℝ (full s prior lik) x (unit v i) from rfl, h']
  simp only [_root_.add_apply, _root_.sum_apply, pd]

theorem pd_cont {l : Lat I → ℝ} (hl : ContDiff ℝ 1 l) : Continuous fun x => pd l x :=
  continuous_pi fun _ => continuous_pi fun _ => (hl.continuous_fderiv (by norm_num)).clm_apply continuous_const

theorem logJoint_smooth {D : Type} {prior : Lat I → ℝ} {lik : D → Lat I → ℝ} (hp : ContDiff ℝ 1 prior) (hk : ∀ d, ContDiff ℝ 1 (lik d))
    (fed : List D) : ContDiff ℝ 1 (logJoint n prior lik fed) := by
  have h1 : ContDiff ℝ 1 fun w => (fed.map fun d => lik d w).sum := by
    induction fed with
    | nil => simpa using contDiff_const
    | cons d l ih =>
      simp only [List.map_cons, List.sum_cons]
      exact (hk d).add ih
  have e : logJoint n prior lik fed = fun w => prior w + (fed.map fun d => lik d w).sum * (fed.length : ℝ)⁻¹ * n := by
    ext w
    simp only [logJoint, mean, List.length_map, div_eq_mul_inv]
  rw [e]
  exact hp.add ((h1.mul contDiff_const).mul contDiff_const)

theorem batchGrad_measurable (s : Arrays n X Y) (perms : List (Equiv.Perm (Fin n))) (b t : ℕ)
    {prior : Lat I → ℝ} {lik : X × Y → Lat I → ℝ} (hp : ContDiff ℝ 1 prior) (hk : ∀ d, ContDiff ℝ 1 (lik d)) :
    Measurable fun a : Lat I × Equiv.Perm (Fin n) => batchGrad s perms b t prior lik a.2 a.1 := by
  have hm : ∀ σ, Measurable (batchGrad s perms b t prior lik σ) := fun σ =>
    (pd_cont (logJoint_smooth (n := n) hp hk (((s.epochs perms).permute σ).feed b t))).measurable
  generalize batchGrad s perms b t prior lik = g at hm
  have _ : Countable (Equiv.Perm (Fin n)) := Finite.to_countable
  exact measurable_from_prod_countable_left (f := fun a : Lat I × Equiv.Perm (Fin n) => g a.2 a.1) hm

theorem batchGrad_le (s : Arrays n X Y) (perms : List (Equiv.Perm (Fin n))) (b t : ℕ)
    {prior : Lat I → ℝ} {lik : X × Y → Lat I → ℝ} (hp : ContDiff ℝ 1 prior) (hk : ∀ d, ContDiff ℝ 1 (lik d))
    (σ : Equiv.Perm (Fin n)) (x : Lat I) :
    ‖batchGrad s perms b t prior lik σ x‖ ≤ ‖pd prior x‖ + (∑ i, ‖pd (lik (s.x i, s.y i)) x‖) * n := by
  have h0 : 0 ≤ ∑ i, ‖pd (lik (s.x i, s.y i)) x‖ := Finset.sum_nonneg fun _ _ => norm_nonneg _
  refine (pi_norm_le_iff_of_nonneg (by positivity)).2 fun v => (pi_norm_le_iff_of_nonneg (by positivity)).2 fun i => ?_
  rw [batchGrad, pd_logJoint hp hk, logJoint]
  refine (norm_add_le _ _).trans (add_le_add ((norm_le_pi_norm (pd prior x v) i).trans (norm_le_pi_norm (pd prior x) v)) ?_)
  rw [norm_mul, Real.norm_natCast]
  refine mul_le_mul_of_nonneg_right (mean_abs_le h0 fun a ha => ?_) (Nat.cast_nonneg n)
  obtain ⟨d, hd, rfl⟩ := List.mem_map.1 ha
  obtain ⟨j, rfl⟩ := fed_mem s perms b t σ hd
  refine ((norm_le_pi_norm (pd (lik (s.x j, s.y j)) x v) i).trans (norm_le_pi_norm (pd (lik (s.x j, s.y j)) x) v)).trans ?_
  exact Finset.single_le_sum (f := fun i => ‖pd (lik (s.x i, s.y i)) x‖) (fun _ _ => norm_nonneg _) (Finset.mem_univ j)

theorem batchGrad_int (s : Arrays n X Y) (perms : List (Equiv.Perm (Fin n))) (b t : ℕ)
    {prior : Lat I → ℝ} {lik : X × Y → Lat I → ℝ} (hp : ContDiff ℝ 1 prior) (hk : ∀ d, ContDiff ℝ 1 (lik d))
    {μ : Measure (Lat I)} [IsProbabilityMeasure μ] (ip : Integrable (pd prior) μ)
    (ik : ∀ i, Integrable (pd (lik (s.x i, s.y i))) μ) :
    Integrable (fun a : Lat I × Equiv.Perm (Fin n) => batchGrad s perms b t prior lik a.2 a.1) (μ.prod (uniform n)) := by
  have h : Integrable (fun x => ‖pd prior x‖ + (∑ i, ‖pd (lik (s.x i, s.y i)) x‖) * n) μ :=
    ip.norm.add ((integrable_finsetSum _ fun i _ => (ik i).norm).mul_const _)
  exact (h.comp_fst (uniform n)).mono' (batchGrad_measurable s perms b t hp hk).aestronglyMeasurable
    (Eventually.of_forall fun a => batchGrad_le s perms b t hp hk a.2 a.1)

/-- SGLD on minibatches of shuffled data targets the posterior given all the data: if the latent variables have that
distribution, one iteration leaves the mean of every test function as it is, to first order in the learning rate, in every
iteration of every epoch. -/
theorem C92_sgld (s : Arrays n X Y) (perms : List (Equiv.Perm (Fin n))) {b t : ℕ} (hb : 0 < b) (ht : t < itersUp n b)
    {prior : Lat I → ℝ} {lik : X × Y → Lat I → ℝ} (hp : ContDiff ℝ 1 prior) (hk : ∀ d, ContDiff ℝ 1 (lik d))
    (hl : LogDens (full s prior lik)) (ip : Integrable (pd prior) (posterior (full s prior lik)))
    (ik : ∀ i, Integrable (pd (lik (s.x i, s.y i))) (posterior (full s prior lik)))
    {f : Lat I → ℝ} (hf : ContDiff ℝ 3 f) (hc : HasCompactSupport f) :
    Tendsto (fun lr : ℝ => ((∫ a : Lat I × Equiv.Perm (Fin n) × Lat I,
        f (fun v => sgld lr (pd (logJoint n prior lik (((s.epochs perms).permute a.2.1).feed b t))) a.2.2 v a.1)
          ∂(posterior (full s prior lik)).prod ((uniform n).prod (normals I))) -
        ∫ x, f x ∂posterior (full s prior lik)) / lr) (𝓝[>] 0) (𝓝 0) := by
  have _ := hl.prob
  exact C90_sgld hl (uniform n) (batchGrad_unbiased s perms hb ht hp hk) (batchGrad_int s perms b t hp hk ip ik) hf hc

theorem batchGrad_lip (s : Arrays n X Y) (perms : List (Equiv.Perm (Fin n))) (b t : ℕ)
    {prior : Lat I → ℝ} {lik : X × Y → Lat I → ℝ} (hp : ContDiff ℝ 1 prior) (hk : ∀ d, ContDiff ℝ 1 (lik d)) {Λ : ℝ} (hΛ : 0 ≤ Λ)
    (lp : ∀ x y, ‖pd prior x - pd prior y‖ ≤ Λ * ‖x - y‖)
    (lk : ∀ i x y, ‖pd (lik (s.x i, s.y i)) x - pd (lik (s.x i, s.y i)) y‖ ≤ Λ * ‖x - y‖)
    (σ : Equiv.Perm (Fin n)) (x y : Lat I) :
    ‖batchGrad s perms b t prior lik σ x - batchGrad s perms b t prior lik σ y‖ ≤ (Λ + Λ * n) * ‖x - y‖ := by
  refine (pi_norm_le_iff_of_nonneg (by positivity)).2 fun v => (pi_norm_le_iff_of_nonneg (by positivity)).2 fun i => ?_
  have comp : ∀ z : Lat I, |z v i| ≤ ‖z‖ := fun z => (norm_le_pi_norm (z v) i).trans (norm_le_pi_norm z v)
  rw [Pi.sub_apply, Pi.sub_apply, batchGrad, pd_logJoint hp hk, pd_logJoint hp hk, logJoint, logJoint]
  set fed := ((s.epochs perms).permute σ).feed b t with hfed
  have e : mean (fed.map fun d => pd (lik d) x v i) - mean (fed.map fun d => pd (lik d) y v i) =
      mean (fed.map fun d => pd (lik d) x v i - pd (lik d) y v i) := by
    unfold mean
    rw [List.length_map, List.length_map, List.length_map, ← sub_div]
    congr 1
    clear_value fed
    clear hfed
    induction fed with
    | nil => simp
    | cons d l ih =>
      simp only [List.map_cons, List.sum_cons]
      rw [← ih]
      ring
  have h1 : |mean (fed.map fun d => pd (lik d) x v i - pd (lik d) y v i)| ≤ Λ * ‖x - y‖ := by
    refine mean_abs_le (by positivity) fun a ha => ?_
    obtain ⟨d, hd, rfl⟩ := List.mem_map.1 ha
    obtain ⟨j, rfl⟩ := fed_mem s perms b t σ hd
    exact (comp (pd (lik (s.x j, s.y j)) x - pd (lik (s.x j, s.y j)) y)).trans (lk j x y)
  have h2 : |pd prior x v i - pd prior y v i| ≤ Λ * ‖x - y‖ := (comp (pd prior x - pd prior y)).trans (lp x y)
  rw [Real.norm_eq_abs, show pd prior x v i + mean (fed.map fun d => pd (lik d) x v i) * n -
      (pd prior y v i + mean (fed.map fun d => pd (lik d) y v i) * n) = (pd prior x v i - pd prior y v i) +
      (mean (fed.map fun d => pd (lik d) x v i) - mean (fed.map fun d => pd (lik d) y v i)) * n by ring, e]
  refine (abs_add_le _ _).trans ?_
  rw [abs_mul, Nat.abs_cast, add_mul, mul_right_comm]
  exact add_le_add h2 (mul_le_mul_of_nonneg_right h1 (Nat.cast_nonneg n))

/-- The second order SGHMC, the sampler of the example, on minibatches of shuffled data targets the posterior given all the data. -/
theorem C92_sghmc (s : Arrays n X Y) (perms : List (Equiv.Perm (Fin n))) {b t : ℕ} (hb : 0 < b) (ht : t < itersUp n b)
    {prior : Lat I → ℝ} {lik : X × Y → Lat I → ℝ} (hp : ContDiff ℝ 1 prior) (hk : ∀ d, ContDiff ℝ 1 (lik d))
    (hl : LogDens (full s prior lik)) (ip : Integrable (pd prior) (posterior (full s prior lik)))
    (ik : ∀ i, Integrable (pd (lik (s.x i, s.y i))) (posterior (full s prior lik))) {Λ : ℝ} (hΛ : 0 ≤ Λ)
    (lp : ∀ x y, ‖pd prior x - pd prior y‖ ≤ Λ * ‖x - y‖)
    (lk : ∀ i x y, ‖pd (lik (s.x i, s.y i)) x - pd (lik (s.x i, s.y i)) y‖ ≤ Λ * ‖x - y‖)
    (now : V → Bool) {A : ℝ} (hA : 0 ≤ A) {f : Lat I × Lat I → ℝ} (hf : ContDiff ℝ 3 f) (hc : HasCompactSupport f) :
    Tendsto (fun h : ℝ => ((∫ a : HDraws I (Equiv.Perm (Fin n)), f (hScaled h fun v =>
        sghmc2 (h ^ 2) (A * h) 0 (pd (logJoint n prior lik (((s.epochs perms).permute a.2.1).feed b t))) now a.1.2.2 a.2.2 v
          (hState h a.1.1 a.1.2.1)) ∂hDraws (full s prior lik) (uniform n)) -
        ∫ x, f x ∂(posterior (full s prior lik)).prod (normals I)) / h) (𝓝[>] 0) (𝓝 0) := by
  have _ := hl.prob
  exact C90_sghmc2 hl (uniform n) (batchGrad_unbiased s perms hb ht hp hk) (batchGrad_measurable s perms b t hp hk)
    (batchGrad_int s perms b t hp hk ip ik) (batchGrad_lip s perms b t hp hk hΛ lp lk) now hA hf hc

end ZhuSuan.Minibatch
