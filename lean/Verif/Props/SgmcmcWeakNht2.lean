import Verif.Props.SgmcmcWeakNhtStep

/-!
# C90: the second order SGNHT

`zhusuan/sgmcmc.py`.
-/

set_option autoImplicit false

open MeasureTheory ProbabilityTheory Filter Topology Set
open ZhuSuan.SgWeak ZhuSuan.Weak

namespace ZhuSuan.Sgmcmc

variable {V : Type} {I J : V → Type} [Fintype V] [∀ v, Fintype (I v)] [∀ v, Fintype (J v)] {Ω : Type} [MeasurableSpace Ω]

/-- The thermostats after half a step. -/
noncomputable def half (σ : V → ℝ) (k : (v : V) → I v → J v) (h : ℝ) (s : ((Lat I × Lat I) × Lat J) × Ω × Lat I) : Lat J :=
  s.1.2 + (h / 2) • excess σ k s.1.1.2

/-- The decays of half a step. -/
noncomputable def dec (A : ℝ) (σ : V → ℝ) (k : (v : V) → I v → J v) (h : ℝ) (s : ((Lat I × Lat I) × Lat J) × Ω × Lat I) :
    Lat I := fun v i => Real.exp (-0.5 * (h * fric A σ k (half σ k h s) v i))

/-- The gradient at the middle. -/
noncomputable def mid (G : Ω → Lat I → Lat I) (h : ℝ) (s : ((Lat I × Lat I) × Lat J) × Ω × Lat I) : Lat I :=
  G s.2.1 (s.1.1.1 + (h / 2) • s.1.1.2)

/-- The new momenta of the second order SGNHT. -/
noncomputable def nht2P (A : ℝ) (σ : V → ℝ) (k : (v : V) → I v → J v) (G : Ω → Lat I → Lat I) (h : ℝ)
    (s : ((Lat I × Lat I) × Lat J) × Ω × Lat I) : Lat I :=
  dec A σ k h s * (dec A σ k h s * s.1.1.2 + h • mid G h s + (√h * √(2 * A)) • s.2.2)

/-- The change of the momenta without the noise. -/
noncomputable def nht2D (A : ℝ) (σ : V → ℝ) (k : (v : V) → I v → J v) (G : Ω → Lat I → Lat I) (h : ℝ)
    (s : ((Lat I × Lat I) × Lat J) × Ω × Lat I) : Lat I :=
  (fun v i => (dec A σ k h s v i ^ 2 - 1) / h) * s.1.1.2 + dec A σ k h s * mid G h s +
    √(2 * A) • ((fun v i => (dec A σ k h s v i - 1) / √h) * s.2.2)

/-- The displacement without the noise. -/
noncomputable def nht2B (A : ℝ) (σ : V → ℝ) (k : (v : V) → I v → J v) (G : Ω → Lat I → Lat I) (h : ℝ)
    (s : ((Lat I × Lat I) × Lat J) × Ω × Lat I) : (Lat I × Lat I) × Lat J :=
  (((1 / 2 : ℝ) • (s.1.1.2 + nht2P A σ k G h s), nht2D A σ k G h s),
    (1 / 2 : ℝ) • (excess σ k s.1.1.2 + excess σ k (nht2P A σ k G h s)))

theorem nht2_form {A τ : ℝ} {σ : V → ℝ} {k : (v : V) → I v → J v} (G : Ω → Lat I → Lat I) (now : V → Bool) (vec : Bool)
    (hM : ∀ (p : Lat I) v i, τ * (maybeMeanSq vec (p v) i - 1) = σ v * excess σ k p v (k v i)) {h : ℝ} (hh : 0 < h)
    (s : NDraws I J Ω) :
    (((nStart now s).1 + √h • (((0 : Lat I), √(2 * A) • s.2.2), (0 : Lat J)) + h • nht2B A σ k G h (nStart now s)).1,
      fric A σ k ((nStart now s).1 + √h • (((0 : Lat I), √(2 * A) • s.2.2), (0 : Lat J)) +
        h • nht2B A σ k G h (nStart now s)).2) =
    nScaled h fun v =>
        sgnht2 (h ^ 2) (A * h) τ vec (G s.2.1) now s.1.1.2.2 s.2.2 v (nState h s.1.1.1 s.1.1.2.1 (fric A σ k s.1.2)) := by
  have hh0 := hh.ne'
  have hs0 : √h ≠ 0 := (Real.sqrt_pos.2 hh).ne'
  have hss : √h * √h = h := Real.mul_self_sqrt hh.le
  set S := nStart now s with hS
  have e0 : ∀ v i, oldV (h ^ 2) now s.1.1.2.2 (fun v i => h * s.1.1.2.1 v i) v i = h * S.1.1.2 v i := fun v i =>
    congrFun (congrFun (oldV_mix hh now s.1.1.2.2 s.1.1.2.1) v) i
  have eg : (fun v i => s.1.1.1 v i + 0.5 * oldV (h ^ 2) now s.1.1.2.2 (fun v i => h * s.1.1.2.1 v i) v i) =
      S.1.1.1 + (h / 2) • S.1.1.2 := by
    ext v i
    rw [e0]
    simp only [hS, Pi.add_apply, Pi.smul_apply, smul_eq_mul]
    ring
  have ea : ∀ v i, h * fric A σ k s.1.2 v i + 0.5 * τ * (maybeMeanSq vec
      (oldV (h ^ 2) now s.1.1.2.2 (fun v i => h * s.1.1.2.1 v i) v) i - h ^ 2) = h * fric A σ k (half σ k h S) v i := by
    intro v i
    rw [funext fun i => e0 v i, meanSq_scale]
    have := hM S.1.1.2 v i
    simp only [fric, half, Pi.add_apply, Pi.smul_apply, smul_eq_mul]
    have e : S.1.2 = s.1.2 := rfl
    rw [e]
    linear_combination 0.5 * h ^ 2 * this
  have e1 : ∀ v i, (sgnht2 (h ^ 2) (A * h) τ vec (G s.2.1) now s.1.1.2.2 s.2.2 v
      (nState h s.1.1.1 s.1.1.2.1 (fric A σ k s.1.2))).v i = h * nht2P A σ k G h S v i := by
    intro v i
    simp only [sgnht2, nState]
    rw [e0, eg, noise_scale0 hh, ea]
    simp only [nht2P, dec, mid, Pi.add_apply, Pi.smul_apply, Pi.mul_apply, smul_eq_mul]
    have e : S.2 = s.2 := rfl
    rw [e]
    ring
  have e2 : ∀ v i, (sgnht2 (h ^ 2) (A * h) τ vec (G s.2.1) now s.1.1.2.2 s.2.2 v
      (nState h s.1.1.1 s.1.1.2.1 (fric A σ k s.1.2))).q i =
        s.1.1.1 v i + 0.5 * (h * S.1.1.2 v i) + 0.5 * (h * nht2P A σ k G h S v i) := by
    intro v i
    rw [← e1, ← e0]
    rfl
  have e3 : ∀ v i, (sgnht2 (h ^ 2) (A * h) τ vec (G s.2.1) now s.1.1.2.2 s.2.2 v
      (nState h s.1.1.1 s.1.1.2.1 (fric A σ k s.1.2))).alpha i =
        h * (fric A σ k (half σ k h S) v i + h / 2 * (σ v * excess σ k (nht2P A σ k G h S) v (k v i))) := by
    intro v i
    have x : (sgnht2 (h ^ 2) (A * h) τ vec (G s.2.1) now s.1.1.2.2 s.2.2 v
      (nState h s.1.1.1 s.1.1.2.1 (fric A σ k s.1.2))).alpha i = h * fric A σ k s.1.2 v i + 0.5 * τ * (maybeMeanSq vec
        (oldV (h ^ 2) now s.1.1.2.2 (fun v i => h * s.1.1.2.1 v i) v) i - h ^ 2) + 0.5 * τ *
        (maybeMeanSq vec (sgnht2 (h ^ 2) (A * h) τ vec (G s.2.1) now s.1.1.2.2 s.2.2 v
          (nState h s.1.1.1 s.1.1.2.1 (fric A σ k s.1.2))).v i - h ^ 2) := rfl
    rw [x, ea, funext fun i => e1 v i, meanSq_scale, ← hM]
    ring
  refine Prod.ext (Prod.ext ?_ ?_) ?_
  · ext v i
    simp only [nScaled, nht2B, Prod.fst_add, Prod.smul_fst, Pi.add_apply, Pi.smul_apply, smul_eq_mul, smul_zero, Pi.zero_apply]
    rw [e2]
    simp only [hS]
    ring
  · ext v i
    simp only [nScaled, nht2B, nht2D, Prod.snd_add, Prod.smul_snd, Prod.fst_add, Prod.smul_fst, Pi.add_apply, Pi.smul_apply,
      Pi.mul_apply, smul_eq_mul]
    rw [e1, mul_div_cancel_left₀ _ hh0]
    simp only [nht2P, Pi.add_apply, Pi.smul_apply, Pi.mul_apply, smul_eq_mul]
    have e : S.2 = s.2 := rfl
    rw [e]
    set D := dec A σ k h S v i with hD
    have x1 : h * ((D ^ 2 - 1) / h * S.1.1.2 v i) = (D ^ 2 - 1) * S.1.1.2 v i := by field_simp
    have x2 : h * (√(2 * A) * ((D - 1) / √h * s.2.2 v i)) = √h * (√(2 * A) * (D - 1)) * s.2.2 v i := by
      have : h * (√(2 * A) * ((D - 1) / √h * s.2.2 v i)) = √h * √h * (√(2 * A) * ((D - 1) / √h * s.2.2 v i)) := by rw [hss]
      rw [this]
      field_simp
    linear_combination x1 + x2
  · ext v i
    simp only [nScaled]
    rw [e3, mul_div_cancel_left₀ _ hh0]
    simp only [fric, half, nht2B, Prod.snd_add, Prod.smul_snd, Pi.add_apply, Pi.smul_apply, smul_eq_mul, smul_zero,
      Pi.zero_apply]
    ring

theorem abs_exp_sub_one {x D : ℝ} (hx : Real.exp x ≤ D) (hD : 1 ≤ D) : |Real.exp x - 1| ≤ |x| * D := by
  rcases le_total x 0 with h | h
  · have h1 := Real.add_one_le_exp x
    have h2 : Real.exp x ≤ 1 := Real.exp_le_one_iff.2 h
    rw [abs_of_nonpos (by linarith), abs_of_nonpos h]
    nlinarith
  · have h1 := Real.add_one_le_exp (-x)
    have h2 : 1 ≤ Real.exp x := Real.one_le_exp h
    have h3 : Real.exp (-x) * Real.exp x = 1 := by rw [← Real.exp_add]; simp
    rw [abs_of_nonneg (by linarith), abs_of_nonneg h]
    nlinarith

theorem excess_lower (σ : V → ℝ) (k : (v : V) → I v → J v) (p : Lat I) (v : V) (j : J v) :
    -((∑ v, |σ v|) ^ 2 * size I) ≤ σ v * excess σ k p v j := by
  classical
  have h1 : -(Fintype.card (I v) : ℝ) ≤ ∑ i, if k v i = j then p v i ^ 2 - 1 else 0 := by
    have : ∑ _i : I v, (-1 : ℝ) ≤ ∑ i, if k v i = j then p v i ^ 2 - 1 else 0 := by
      refine Finset.sum_le_sum fun i _ => ?_
      split_ifs
      · nlinarith [sq_nonneg (p v i)]
      · norm_num
    simpa using this
  have h2 : (Fintype.card (I v) : ℝ) ≤ size I := by
    exact_mod_cast Finset.single_le_sum (f := fun v => Fintype.card (I v)) (fun _ _ => Nat.zero_le _) (Finset.mem_univ v)
  have h3 : σ v ^ 2 ≤ (∑ v, |σ v|) ^ 2 := by
    rw [← sq_abs]
    exact pow_le_pow_left₀ (abs_nonneg _) (sum_abs_le σ v) 2
  have h4 : σ v ^ 2 * (Fintype.card (I v) : ℝ) ≤ (∑ v, |σ v|) ^ 2 * size I :=
    mul_le_mul h3 h2 (by positivity) (by positivity)
  have h5 : σ v ^ 2 * -(Fintype.card (I v) : ℝ) ≤ σ v ^ 2 * ∑ i, if k v i = j then p v i ^ 2 - 1 else 0 :=
    mul_le_mul_of_nonneg_left h1 (sq_nonneg _)
  unfold excess
  calc -((∑ v, |σ v|) ^ 2 * size I) ≤ σ v ^ 2 * -(Fintype.card (I v) : ℝ) := by linarith
    _ ≤ _ := h5
    _ = _ := by ring

theorem half_norm (σ : V → ℝ) (k : (v : V) → I v → J v) {h : ℝ} (h1 : 0 < h) (h2 : h ≤ 1)
    (s : ((Lat I × Lat I) × Lat J) × Ω × Lat I) :
    ‖half σ k h s‖ ≤ ‖s.1.2‖ + (∑ v, |σ v|) * size I * (‖s.1.1.2‖ ^ 2 + 1) := by
  refine (norm_add_le _ _).trans (add_le_add_right ?_ _)
  rw [norm_smul, Real.norm_of_nonneg (by positivity)]
  exact (mul_le_of_le_one_left (norm_nonneg _) (by linarith)).trans (excess_norm σ k _)

theorem dec_le {A : ℝ} (hA : 0 ≤ A) (σ : V → ℝ) (k : (v : V) → I v → J v) {h : ℝ} (h1 : 0 < h) (h2 : h ≤ 1)
    (s : ((Lat I × Lat I) × Lat J) × Ω × Lat I) (v : V) (i : I v) :
    dec A σ k h s v i ≤ Real.exp (((∑ v, |σ v|) * ‖s.1.2‖ + (∑ v, |σ v|) ^ 2 * size I) / 2) := by
  refine Real.exp_le_exp.2 ?_
  have M0 : 0 ≤ ∑ v, |σ v| := Finset.sum_nonneg fun _ _ => abs_nonneg _
  have l1 := excess_lower σ k s.1.1.2 v (k v i)
  have l2 : -((∑ v, |σ v|) * ‖s.1.2‖) ≤ σ v * s.1.2 v (k v i) := by
    refine neg_le_of_abs_le ?_
    rw [abs_mul]
    exact mul_le_mul (sum_abs_le σ v) (comp_le _ v _) (abs_nonneg _) M0
  have l3 : 0 ≤ (∑ v, |σ v|) ^ 2 * (size I : ℝ) := by positivity
  have l4 : 0 ≤ (∑ v, |σ v|) * ‖s.1.2‖ := by positivity
  set a := (∑ v, |σ v|) ^ 2 * (size I : ℝ)
  set b := (∑ v, |σ v|) * ‖s.1.2‖
  have e : fric A σ k (half σ k h s) v i = A + σ v * s.1.2 v (k v i) + h / 2 * (σ v * excess σ k s.1.1.2 v (k v i)) := by
    simp only [fric, half, Pi.add_apply, Pi.smul_apply, smul_eq_mul]
    ring
  rw [e]
  have l5 : -(b + a) ≤ A + σ v * s.1.2 v (k v i) + h / 2 * (σ v * excess σ k s.1.1.2 v (k v i)) := by
    have : h / 2 * -a ≤ h / 2 * (σ v * excess σ k s.1.1.2 v (k v i)) := mul_le_mul_of_nonneg_left l1 (by positivity)
    nlinarith
  have l6 : h * -(b + a) ≤ h * (A + σ v * s.1.2 v (k v i) + h / 2 * (σ v * excess σ k s.1.1.2 v (k v i))) :=
    mul_le_mul_of_nonneg_left l5 h1.le
  have l7 : h * (b + a) ≤ b + a := mul_le_of_le_one_left (by positivity) h2
  linarith

theorem lat_norm_le {x : Lat I} {r : ℝ} (hr : 0 ≤ r) (h : ∀ v i, |x v i| ≤ r) : ‖x‖ ≤ r :=
  (pi_norm_le_iff_of_nonneg hr).2 fun v => (pi_norm_le_iff_of_nonneg hr).2 fun i => h v i

theorem mid_norm {G : Ω → Lat I → Lat I} {Λ : ℝ} (hΛ : 0 ≤ Λ) (hLip : ∀ ω x y, ‖G ω x - G ω y‖ ≤ Λ * ‖x - y‖) {h : ℝ}
    (h1 : 0 < h) (h2 : h ≤ 1) (s : ((Lat I × Lat I) × Lat J) × Ω × Lat I) :
    ‖mid G h s‖ ≤ ‖G s.2.1 s.1.1.1‖ + Λ * ‖s.1.1.2‖ := by
  have e := hLip s.2.1 (s.1.1.1 + (h / 2) • s.1.1.2) s.1.1.1
  rw [add_sub_cancel_left, norm_smul, Real.norm_of_nonneg (by positivity)] at e
  have e2 : Λ * (h / 2 * ‖s.1.1.2‖) ≤ Λ * ‖s.1.1.2‖ :=
    mul_le_mul_of_nonneg_left (mul_le_of_le_one_left (norm_nonneg _) (by linarith)) hΛ
  have e3 : ‖mid G h s‖ ≤ ‖G s.2.1 (s.1.1.1 + (h / 2) • s.1.1.2) - G s.2.1 s.1.1.1‖ + ‖G s.2.1 s.1.1.1‖ := by
    unfold mid
    simpa using norm_add_le (G s.2.1 (s.1.1.1 + (h / 2) • s.1.1.2) - G s.2.1 s.1.1.1) (G s.2.1 s.1.1.1)
  linarith

theorem rates {A : ℝ} {σ : V → ℝ} {k : (v : V) → I v → J v} {h : ℝ} (h1 : 0 < h) (h2 : h ≤ 1)
    (s : ((Lat I × Lat I) × Lat J) × Ω × Lat I) {D Φ : ℝ} (hD : 1 ≤ D) (hd : ∀ v i, dec A σ k h s v i ≤ D)
    (hΦ : ∀ v i, |fric A σ k (half σ k h s) v i| ≤ Φ) (hΦ0 : 0 ≤ Φ) :
    ‖(fun v i => (dec A σ k h s v i ^ 2 - 1) / h : Lat I)‖ ≤ Φ * D ^ 2 ∧
      ‖(fun v i => (dec A σ k h s v i - 1) / √h : Lat I)‖ ≤ Φ * D := by
  have hs1 : √h ≤ 1 := Real.sqrt_le_one.2 h2
  have hs0 : 0 < √h := Real.sqrt_pos.2 h1
  have hss : √h * √h = h := Real.mul_self_sqrt h1.le
  refine ⟨lat_norm_le (by positivity) fun v i => ?_, lat_norm_le (by positivity) fun v i => ?_⟩
  · have e : dec A σ k h s v i ^ 2 = Real.exp (-(h * fric A σ k (half σ k h s) v i)) := by
      unfold dec
      rw [← Real.exp_nat_mul]
      congr 1
      push_cast
      ring
    have hd2 : dec A σ k h s v i ^ 2 ≤ D ^ 2 := pow_le_pow_left₀ (Real.exp_pos _).le (hd v i) 2
    have l := abs_exp_sub_one (x := -(h * fric A σ k (half σ k h s) v i)) (D := D ^ 2) (by rw [← e]; exact hd2)
      (one_le_pow₀ hD)
    rw [← e, abs_neg, abs_mul, abs_of_pos h1] at l
    rw [abs_div, abs_of_pos h1, div_le_iff₀ h1]
    refine l.trans ?_
    have := mul_le_mul_of_nonneg_left (hΦ v i) h1.le
    calc h * |fric A σ k (half σ k h s) v i| * D ^ 2 ≤ h * Φ * D ^ 2 := by gcongr
      _ = _ := by ring
  · have l := abs_exp_sub_one (x := -0.5 * (h * fric A σ k (half σ k h s) v i)) (D := D) (hd v i) hD
    rw [abs_mul, abs_mul, abs_of_pos h1] at l
    rw [abs_div, abs_of_pos hs0, div_le_iff₀ hs0]
    have e : dec A σ k h s v i = Real.exp (-0.5 * (h * fric A σ k (half σ k h s) v i)) := rfl
    rw [e]
    refine l.trans ?_
    have a1 : |(-0.5 : ℝ)| = 1 / 2 := by norm_num
    have a2 : h ≤ √h := by nlinarith
    rw [a1]
    calc 1 / 2 * (h * |fric A σ k (half σ k h s) v i|) * D ≤ 1 / 2 * (√h * Φ) * D := by gcongr; exact hΦ v i
      _ ≤ Φ * D * √h := by nlinarith [mul_nonneg (mul_nonneg hs0.le hΦ0) (by linarith : (0 : ℝ) ≤ D)]

theorem real_bound {A M n x z η X : ℝ} (hA : 0 ≤ A) (hM : 0 ≤ M) (hn : 0 ≤ n) (hx : 0 ≤ x)
    (hz : 0 ≤ z) (hη : 0 ≤ η) (hX : η + 1 ≤ X) :
    A + M * (η + M * n * (x ^ 2 + 1)) ≤ (A + M + M * M * n) * (X * (1 + x + z) ^ 2) := by
  have X1 : 1 ≤ X := by linarith
  have Z1 : 1 ≤ (1 + x + z) ^ 2 := by nlinarith
  have T1 : 1 ≤ X * (1 + x + z) ^ 2 := by nlinarith
  have T2 : η ≤ X * (1 + x + z) ^ 2 := by nlinarith
  have T3 : x ^ 2 + 1 ≤ X * (1 + x + z) ^ 2 := by
    have : x ^ 2 + 1 ≤ (1 + x + z) ^ 2 := by nlinarith [mul_nonneg hx hz]
    nlinarith
  have e1 : A * 1 ≤ A * (X * (1 + x + z) ^ 2) := mul_le_mul_of_nonneg_left T1 hA
  have e2 : M * η ≤ M * (X * (1 + x + z) ^ 2) := mul_le_mul_of_nonneg_left T2 hM
  have e3 : M * M * n * (x ^ 2 + 1) ≤ M * M * n * (X * (1 + x + z) ^ 2) := mul_le_mul_of_nonneg_left T3 (by positivity)
  linarith

set_option maxHeartbeats 400000 in
theorem nht2_bound {A : ℝ} (hA : 0 ≤ A) {σ : V → ℝ} {k : (v : V) → I v → J v} {G : Ω → Lat I → Lat I} {Λ : ℝ} (hΛ : 0 ≤ Λ)
    (hLip : ∀ ω x y, ‖G ω x - G ω y‖ ≤ Λ * ‖x - y‖) {M n c : ℝ} (hM : M = ∑ v, |σ v|) (hn : n = size I) (hc : c = √(2 * A))
    {h : ℝ} (h1 : 0 < h) (h2 : h ≤ 1) (s : ((Lat I × Lat I) × Lat J) × Ω × Lat I) :
    ‖nht2B A σ k G h s‖ ≤ Real.exp ((1 + 2 * M) * ‖s.1.2‖) * (Real.exp (2 * (M ^ 2 * n)) *
      ((1 + Λ + c) + M * n * ((1 + Λ + c) ^ 2 + 1) + (A + M + M * M * n) * (1 + c) + (1 + Λ)) *
        ((1 + ‖s.1.1.2‖ + ‖s.2.2‖) ^ 3 + (1 + ‖s.1.1.2‖ + ‖G s.2.1 s.1.1.1‖ + ‖s.2.2‖) ^ 2)) := by
  have M0 : 0 ≤ M := hM ▸ Finset.sum_nonneg fun _ _ => abs_nonneg _
  have n0 : 0 ≤ n := hn ▸ Nat.cast_nonneg _
  have c0 : 0 ≤ c := hc ▸ Real.sqrt_nonneg _
  have hd := dec_le hA σ k h1 h2 s
  have hhalf := half_norm σ k h1 h2 s
  have hmid := mid_norm hΛ hLip h1 h2 s
  have hex := excess_norm σ k s.1.1.2
  have hex2 := excess_norm σ k (nht2P A σ k G h s)
  have hfr := fric_norm hA σ k (half σ k h s)
  rw [← hM] at hd hhalf hex hex2 hfr
  rw [← hn] at hd hhalf hex hex2
  set D := Real.exp ((M * ‖s.1.2‖ + M ^ 2 * n) / 2) with hD
  set X := Real.exp ‖s.1.2‖ with hX
  have D1 : 1 ≤ D := Real.one_le_exp (by positivity)
  have X0 : ‖s.1.2‖ + 1 ≤ X := Real.add_one_le_exp _
  have e0 : Real.exp ((1 + 2 * M) * ‖s.1.2‖) * Real.exp (2 * (M ^ 2 * n)) = X * D ^ 4 := by
    rw [hX, hD, ← Real.exp_nat_mul, ← Real.exp_add, ← Real.exp_add]
    congr 1
    push_cast
    ring
  rw [← mul_assoc, ← mul_assoc, e0]
  have hη := norm_nonneg s.1.2
  set x := ‖s.1.1.2‖ with hx
  have x0 : 0 ≤ x := norm_nonneg _
  set g := ‖G s.2.1 s.1.1.1‖ with hg
  have g0 : 0 ≤ g := norm_nonneg _
  set z := ‖s.2.2‖ with hz
  have z0 : 0 ≤ z := norm_nonneg _
  set Y := 1 + x + g + z with hY
  set Z := 1 + x + z with hZ
  have X1 : 1 ≤ X := by linarith
  have Y1 : 1 ≤ Y := by linarith
  have Z1 : 1 ≤ Z := by linarith
  set K1 := 1 + Λ + c with hK1
  set K2 := A + M + M * M * n with hK2
  have K10 : 1 ≤ K1 := by linarith
  have K20 : 0 ≤ K2 := by positivity
  have hΦ : ∀ v i, |fric A σ k (half σ k h s) v i| ≤ K2 * (X * Z ^ 2) := by
    intro v i
    refine (comp_le _ v i).trans (hfr.trans ?_)
    refine le_trans ?_ (real_bound (n := n) hA M0 n0 x0 z0 hη X0)
    have := mul_le_mul_of_nonneg_left hhalf M0
    linarith
  obtain ⟨r1, r2⟩ := rates h1 h2 s D1 hd hΦ (by positivity)
  have hdn : ‖dec A σ k h s‖ ≤ D := lat_norm_le (by linarith) fun v i => by
    have : 0 < dec A σ k h s v i := Real.exp_pos _
    rw [abs_of_pos this]
    exact hd v i
  have hs1 : √h ≤ 1 := Real.sqrt_le_one.2 h2
  have hP : ‖nht2P A σ k G h s‖ ≤ K1 * (D ^ 2 * Y) := by
    unfold nht2P
    rw [← hc]
    refine (norm_mul_le _ _).trans ?_
    have i1 : ‖dec A σ k h s * s.1.1.2 + h • mid G h s + (√h * c) • s.2.2‖ ≤ D * x + (g + Λ * x) + c * z := by
      refine norm_add₃_le.trans ?_
      rw [norm_smul, norm_smul, Real.norm_of_nonneg h1.le, Real.norm_of_nonneg (by positivity)]
      have j1 : ‖dec A σ k h s * s.1.1.2‖ ≤ D * x := (norm_mul_le _ _).trans (mul_le_mul_of_nonneg_right hdn x0)
      have j2 : h * ‖mid G h s‖ ≤ g + Λ * x := (mul_le_of_le_one_left (norm_nonneg _) h2).trans hmid
      have j3 : √h * c * z ≤ c * z := by
        rw [mul_assoc]
        exact mul_le_of_le_one_left (by positivity) hs1
      linarith
    have i2 : D * x + (g + Λ * x) + c * z ≤ K1 * (D * Y) := by
      have j0 : Y ≤ D * Y := le_mul_of_one_le_left (by linarith) D1
      have j1 : D * x + g ≤ D * Y := by
        have : D * (x + g) ≤ D * Y := mul_le_mul_of_nonneg_left (by linarith) (by linarith)
        have : 1 * g ≤ D * g := mul_le_mul_of_nonneg_right D1 g0
        linarith
      have j2 : Λ * x ≤ Λ * (D * Y) := mul_le_mul_of_nonneg_left (by linarith) hΛ
      have j3 : c * z ≤ c * (D * Y) := mul_le_mul_of_nonneg_left (by linarith) c0
      rw [hK1]
      linarith
    calc ‖dec A σ k h s‖ * _ ≤ D * (K1 * (D * Y)) := mul_le_mul hdn (i1.trans i2) (norm_nonneg _) (by linarith)
      _ = _ := by ring
  have D20 : 1 ≤ D ^ 2 := one_le_pow₀ D1
  have DD : D ≤ D ^ 2 := le_self_pow₀ D1 two_ne_zero
  set T := X * D ^ 4 * (Z ^ 3 + Y ^ 2) with hT
  have T1 : (D ^ 2 * Y) ^ 2 ≤ T := by
    have : (D ^ 2 * Y) ^ 2 = 1 * (D ^ 4 * Y ^ 2) := by ring
    rw [this, hT, mul_assoc]
    refine mul_le_mul X1 ?_ (by positivity) (by linarith)
    have : 0 ≤ D ^ 4 * Z ^ 3 := by positivity
    linarith
  have T2 : D ^ 2 * Y ≤ T := by
    exact (le_self_pow₀ (one_le_mul_of_one_le_of_one_le D20 Y1) two_ne_zero).trans T1
  have T3 : X * D ^ 2 * Z ^ 3 ≤ T := by
    rw [hT]
    have : D ^ 2 ≤ D ^ 4 := pow_le_pow_right₀ D1 (by norm_num)
    refine mul_le_mul ?_ ?_ (by positivity) (by positivity)
    · exact mul_le_mul_of_nonneg_left this (by linarith)
    · have : 0 ≤ Y ^ 2 := by positivity
      linarith
  have T0 : 0 ≤ T := le_trans (by positivity) T1
  have hDn : ‖nht2D A σ k G h s‖ ≤ K2 * (1 + c) * T + (1 + Λ) * T := by
    unfold nht2D
    refine norm_add₃_le.trans ?_
    rw [norm_smul, ← hc, Real.norm_of_nonneg c0]
    have j1 : ‖(fun v i => (dec A σ k h s v i ^ 2 - 1) / h : Lat I) * s.1.1.2‖ ≤ K2 * (X * Z ^ 2) * D ^ 2 * x :=
      (norm_mul_le _ _).trans (mul_le_mul_of_nonneg_right r1 x0)
    have j2 : ‖dec A σ k h s * mid G h s‖ ≤ D * (g + Λ * x) :=
      (norm_mul_le _ _).trans (mul_le_mul hdn hmid (norm_nonneg _) (by linarith))
    have j3 : ‖(fun v i => (dec A σ k h s v i - 1) / √h : Lat I) * s.2.2‖ ≤ K2 * (X * Z ^ 2) * D * z :=
      (norm_mul_le _ _).trans (mul_le_mul_of_nonneg_right r2 z0)
    have k1 : K2 * (X * Z ^ 2) * D ^ 2 * x ≤ K2 * T := by
      calc K2 * (X * Z ^ 2) * D ^ 2 * x ≤ K2 * (X * Z ^ 2) * D ^ 2 * Z :=
            mul_le_mul_of_nonneg_left (by linarith) (by positivity)
        _ = K2 * (X * D ^ 2 * Z ^ 3) := by ring
        _ ≤ _ := mul_le_mul_of_nonneg_left T3 K20
    have k2 : K2 * (X * Z ^ 2) * D * z ≤ K2 * T := by
      calc K2 * (X * Z ^ 2) * D * z ≤ K2 * (X * Z ^ 2) * D ^ 2 * Z :=
            mul_le_mul (mul_le_mul_of_nonneg_left DD (by positivity)) (by linarith) z0 (by positivity)
        _ = K2 * (X * D ^ 2 * Z ^ 3) := by ring
        _ ≤ _ := mul_le_mul_of_nonneg_left T3 K20
    have k3 : D * (g + Λ * x) ≤ (1 + Λ) * T := by
      have i1 : g + Λ * x ≤ (1 + Λ) * Y := by
        have : Λ * x ≤ Λ * Y := mul_le_mul_of_nonneg_left (by linarith) hΛ
        linarith
      calc D * (g + Λ * x) ≤ D ^ 2 * ((1 + Λ) * Y) := mul_le_mul DD i1 (by positivity) (by positivity)
        _ = (1 + Λ) * (D ^ 2 * Y) := by ring
        _ ≤ _ := mul_le_mul_of_nonneg_left T2 (by linarith)
    have k4 := mul_le_mul_of_nonneg_left (j3.trans k2) c0
    linarith
  have t1 : 0 ≤ M * n * (K1 ^ 2 + 1) * T := by positivity
  have t2 : 0 ≤ K2 * (1 + c) * T := by positivity
  have t3 : 0 ≤ (1 + Λ) * T := by positivity
  have t4 : 0 ≤ K1 * T := mul_nonneg (by linarith) T0
  have hgoal : X * D ^ 4 * (K1 + M * n * (K1 ^ 2 + 1) + K2 * (1 + c) + (1 + Λ)) * (Z ^ 3 + Y ^ 2) =
      K1 * T + M * n * (K1 ^ 2 + 1) * T + K2 * (1 + c) * T + (1 + Λ) * T := by
    rw [hT]
    ring
  rw [hgoal]
  have x1 : x ≤ D ^ 2 * Y := le_trans (by linarith : x ≤ Y) (le_mul_of_one_le_left (by linarith) D20)
  have b1 : ‖(1 / 2 : ℝ) • (s.1.1.2 + nht2P A σ k G h s)‖ ≤ K1 * T := by
    rw [norm_smul, Real.norm_of_nonneg (by norm_num)]
    have i1 := norm_add_le s.1.1.2 (nht2P A σ k G h s)
    have i2 : K1 * (D ^ 2 * Y) ≤ K1 * T := mul_le_mul_of_nonneg_left T2 (by linarith)
    have i3 : 1 * (D ^ 2 * Y) ≤ K1 * (D ^ 2 * Y) := mul_le_mul_of_nonneg_right K10 (by positivity)
    linarith
  have b3 : ‖(1 / 2 : ℝ) • (excess σ k s.1.1.2 + excess σ k (nht2P A σ k G h s))‖ ≤ M * n * (K1 ^ 2 + 1) * T := by
    rw [norm_smul, Real.norm_of_nonneg (by norm_num)]
    have i1 := norm_add_le (excess σ k s.1.1.2) (excess σ k (nht2P A σ k G h s))
    have y1 : 1 ≤ (D ^ 2 * Y) ^ 2 := one_le_pow₀ (one_le_mul_of_one_le_of_one_le D20 Y1)
    have i2 : x ^ 2 + 1 ≤ (K1 ^ 2 + 1) * T := by
      have a1 : x ^ 2 ≤ (D ^ 2 * Y) ^ 2 := pow_le_pow_left₀ x0 x1 2
      have a2 : 1 * T ≤ K1 ^ 2 * T := mul_le_mul_of_nonneg_right (one_le_pow₀ K10) T0
      linarith
    have i3 : ‖nht2P A σ k G h s‖ ^ 2 + 1 ≤ (K1 ^ 2 + 1) * T := by
      have a1 := pow_le_pow_left₀ (norm_nonneg _) hP 2
      rw [mul_pow] at a1
      have a2 : K1 ^ 2 * (D ^ 2 * Y) ^ 2 ≤ K1 ^ 2 * T := mul_le_mul_of_nonneg_left T1 (by positivity)
      linarith
    have i4 := mul_le_mul_of_nonneg_left i2 (mul_nonneg M0 n0)
    have i5 := mul_le_mul_of_nonneg_left i3 (mul_nonneg M0 n0)
    rw [← mul_assoc] at i4 i5
    linarith
  unfold nht2B
  rw [Prod.norm_def, Prod.norm_def]
  exact max_le (max_le (by linarith) (by linarith)) (by linarith)

theorem exp_slope2 (a b : ℝ) : Tendsto (fun h : ℝ => (Real.exp (a * h + b * h ^ 2) - 1) / h) (𝓝[>] 0) (𝓝 a) := by
  have h1 : HasDerivAt (fun h : ℝ => Real.exp (a * h + b * h ^ 2)) a 0 := by
    have := (((hasDerivAt_id (0 : ℝ)).const_mul a).add (((hasDerivAt_id (0 : ℝ)).pow 2).const_mul b)).exp
    simpa using this
  have h2 := h1.tendsto_slope_zero_right
  have e : Real.exp (a * 0 + b * 0 ^ 2) = 1 := by simp
  simp only [zero_add, e, smul_eq_mul] at h2
  exact h2.congr fun h => by rw [div_eq_inv_mul]

theorem dec_form (A : ℝ) (σ : V → ℝ) (k : (v : V) → I v → J v) (h : ℝ) (s : ((Lat I × Lat I) × Lat J) × Ω × Lat I)
    (v : V) (i : I v) : dec A σ k h s v i =
      Real.exp (-0.5 * fric A σ k s.1.2 v i * h + -0.25 * (σ v * excess σ k s.1.1.2 v (k v i)) * h ^ 2) := by
  unfold dec
  congr 1
  simp only [fric, half, Pi.add_apply, Pi.smul_apply, smul_eq_mul]
  ring

theorem dec_tendsto (A : ℝ) (σ : V → ℝ) (k : (v : V) → I v → J v) (s : ((Lat I × Lat I) × Lat J) × Ω × Lat I) :
    Tendsto (fun h => dec A σ k h s) (𝓝[>] 0) (𝓝 1) := by
  refine tendsto_pi_nhds.2 fun v => tendsto_pi_nhds.2 fun i => ?_
  simp only [dec_form]
  set a := -0.5 * fric A σ k s.1.2 v i
  set b := -0.25 * (σ v * excess σ k s.1.1.2 v (k v i))
  have hc : Continuous fun h : ℝ => Real.exp (a * h + b * h ^ 2) := by fun_prop
  have := (hc.tendsto 0).mono_left (nhdsWithin_le_nhds (s := Ioi 0))
  simpa using this

theorem rate1_tendsto (A : ℝ) (σ : V → ℝ) (k : (v : V) → I v → J v) (s : ((Lat I × Lat I) × Lat J) × Ω × Lat I) :
    Tendsto (fun h => (fun v i => (dec A σ k h s v i ^ 2 - 1) / h : Lat I)) (𝓝[>] 0) (𝓝 (-fric A σ k s.1.2)) := by
  refine tendsto_pi_nhds.2 fun v => tendsto_pi_nhds.2 fun i => ?_
  simp only [dec_form, ← Real.exp_nat_mul]
  set b := -0.25 * (σ v * excess σ k s.1.1.2 v (k v i))
  have := exp_slope2 (-fric A σ k s.1.2 v i) (2 * b)
  refine this.congr fun h => ?_
  congr 3
  push_cast
  ring

theorem rate2_tendsto (A : ℝ) (σ : V → ℝ) (k : (v : V) → I v → J v) (s : ((Lat I × Lat I) × Lat J) × Ω × Lat I) :
    Tendsto (fun h => (fun v i => (dec A σ k h s v i - 1) / √h : Lat I)) (𝓝[>] 0) (𝓝 0) := by
  refine tendsto_pi_nhds.2 fun v => tendsto_pi_nhds.2 fun i => ?_
  simp only [dec_form, Pi.zero_apply]
  set a := -0.5 * fric A σ k s.1.2 v i
  set b := -0.25 * (σ v * excess σ k s.1.1.2 v (k v i))
  have := (exp_slope2 a b).mul sqrt_tendsto
  rw [mul_zero] at this
  refine this.congr' ?_
  filter_upwards [self_mem_nhdsWithin] with h hh
  have hh' : (0 : ℝ) < h := hh
  have hs0 : √h ≠ 0 := (Real.sqrt_pos.2 hh').ne'
  have e : √h * √h = h := Real.mul_self_sqrt hh'.le
  rw [div_mul_eq_mul_div, div_eq_div_iff hh'.ne' hs0, mul_assoc, e]

theorem nht2_tendsto {A : ℝ} {σ : V → ℝ} {k : (v : V) → I v → J v} {G : Ω → Lat I → Lat I} (hGc : ∀ ω, Continuous (G ω))
    (s : ((Lat I × Lat I) × Lat J) × Ω × Lat I) : Tendsto (fun h => nht2B A σ k G h s) (𝓝[>] 0)
      (𝓝 ((s.1.1.2, G s.2.1 s.1.1.1 - fric A σ k s.1.2 * s.1.1.2), excess σ k s.1.1.2)) := by
  have t1 : Tendsto (fun h : ℝ => h) (𝓝[>] 0) (𝓝 0) := nhdsWithin_le_nhds
  have td := dec_tendsto A σ k s
  have tg : Tendsto (fun h => mid G h s) (𝓝[>] 0) (𝓝 (G s.2.1 s.1.1.1)) := by
    have h1 : Tendsto (fun h : ℝ => s.1.1.1 + (h / 2) • s.1.1.2) (𝓝[>] 0) (𝓝 (s.1.1.1 + ((0 : ℝ) / 2) • s.1.1.2)) :=
      tendsto_const_nhds.add ((t1.div_const 2).smul_const _)
    have h2 := ((hGc s.2.1).tendsto _).comp h1
    rw [zero_div, zero_smul, add_zero] at h2
    exact h2
  have tp : Tendsto (fun h => nht2P A σ k G h s) (𝓝[>] 0) (𝓝 s.1.1.2) := by
    have := td.mul (((td.mul_const s.1.1.2).add (t1.smul tg)).add ((sqrt_tendsto.mul_const √(2 * A)).smul_const s.2.2))
    rw [zero_smul, one_mul, one_mul, zero_mul, zero_smul, add_zero, add_zero] at this
    exact this
  have half2 : ∀ {E : Type} [AddCommGroup E] [Module ℝ E] (y : E), (1 / 2 : ℝ) • (y + y) = y := fun y => by
    rw [← two_smul ℝ y, smul_smul]
    norm_num
  have l1 := ((tendsto_const_nhds (x := s.1.1.2)).add tp).const_smul (1 / 2 : ℝ)
  rw [half2] at l1
  have l2 := (((rate1_tendsto A σ k s).mul_const s.1.1.2).add (td.mul tg)).add
    (((rate2_tendsto A σ k s).mul_const s.2.2).const_smul √(2 * A))
  have e2 : -fric A σ k s.1.2 * s.1.1.2 + 1 * G s.2.1 s.1.1.1 + √(2 * A) • (0 * s.2.2) =
      G s.2.1 s.1.1.1 - fric A σ k s.1.2 * s.1.1.2 := by
    rw [one_mul, zero_mul, smul_zero, add_zero, neg_mul]
    abel
  rw [e2] at l2
  have l3 := ((tendsto_const_nhds (x := excess σ k s.1.1.2)).add (((excess_cont σ k).tendsto _).comp tp)).const_smul (1 / 2 : ℝ)
  rw [half2] at l3
  exact (l1.prodMk_nhds l2).prodMk_nhds l3

theorem nht2_meas {A : ℝ} {σ : V → ℝ} {k : (v : V) → I v → J v} {G : Ω → Lat I → Lat I}
    (hGm : Measurable fun s : Lat I × Ω => G s.2 s.1) (h : ℝ) :
    Measurable (nht2B A σ k G h : ((Lat I × Lat I) × Lat J) × Ω × Lat I → _) := by
  have mp : Measurable fun s : ((Lat I × Lat I) × Lat J) × Ω × Lat I => s.1.1.2 :=
    measurable_snd.comp (measurable_fst.comp measurable_fst)
  have mz : Measurable fun s : ((Lat I × Lat I) × Lat J) × Ω × Lat I => s.2.2 := measurable_snd.comp measurable_snd
  have mx : Measurable fun s : ((Lat I × Lat I) × Lat J) × Ω × Lat I => excess σ k s.1.1.2 :=
    (excess_cont σ k).measurable.comp mp
  have mh : Measurable fun s : ((Lat I × Lat I) × Lat J) × Ω × Lat I => half σ k h s :=
    (measurable_snd.comp measurable_fst).add (mx.const_smul (h / 2))
  have mf : Measurable fun s : ((Lat I × Lat I) × Lat J) × Ω × Lat I => fric A σ k (half σ k h s) :=
    (fric_cont A σ k).measurable.comp mh
  have mdc : ∀ v i, Measurable fun s : ((Lat I × Lat I) × Lat J) × Ω × Lat I => dec A σ k h s v i := by
    intro v i
    have : Measurable fun s : ((Lat I × Lat I) × Lat J) × Ω × Lat I => fric A σ k (half σ k h s) v i :=
      (measurable_pi_apply i).comp ((measurable_pi_apply v).comp mf)
    unfold dec
    exact Real.measurable_exp.comp ((this.const_mul h).const_mul (-0.5))
  have md : Measurable fun s : ((Lat I × Lat I) × Lat J) × Ω × Lat I => dec A σ k h s :=
    measurable_pi_lambda _ fun v => measurable_pi_lambda _ fun i => mdc v i
  have mg : Measurable fun s : ((Lat I × Lat I) × Lat J) × Ω × Lat I => mid G h s := by
    have h1 : Measurable fun s : ((Lat I × Lat I) × Lat J) × Ω × Lat I => (s.1.1.1 + (h / 2) • s.1.1.2, s.2.1) :=
      ((measurable_fst.comp (measurable_fst.comp measurable_fst)).add (mp.const_smul (h / 2))).prodMk
        (measurable_fst.comp measurable_snd)
    exact hGm.comp h1
  have mP : Measurable fun s : ((Lat I × Lat I) × Lat J) × Ω × Lat I => nht2P A σ k G h s :=
    md.mul (((md.mul mp).add (mg.const_smul h)).add (mz.const_smul (√h * √(2 * A))))
  have r1 : Measurable fun s : ((Lat I × Lat I) × Lat J) × Ω × Lat I => (fun v i => (dec A σ k h s v i ^ 2 - 1) / h : Lat I) :=
    measurable_pi_lambda _ fun v => measurable_pi_lambda _ fun i => (((mdc v i).pow_const 2).sub_const 1).div_const h
  have r2 : Measurable fun s : ((Lat I × Lat I) × Lat J) × Ω × Lat I => (fun v i => (dec A σ k h s v i - 1) / √h : Lat I) :=
    measurable_pi_lambda _ fun v => measurable_pi_lambda _ fun i => ((mdc v i).sub_const 1).div_const √h
  have mD : Measurable fun s : ((Lat I × Lat I) × Lat J) × Ω × Lat I => nht2D A σ k G h s :=
    ((r1.mul mp).add (md.mul mg)).add ((r2.mul mz).const_smul √(2 * A))
  exact (((mp.add mP).const_smul (1 / 2 : ℝ)).prodMk mD).prodMk
    ((mx.add ((excess_cont σ k).measurable.comp mP)).const_smul (1 / 2 : ℝ))

/-- The second order SGNHT with any way to share the frictions. -/
theorem nht2_limit {l : Lat I → ℝ} (hl : LogDens l) (P : Measure Ω) [IsProbabilityMeasure P]
    {G : Ω → Lat I → Lat I} (hG : Unbiased P G l) (hGm : Measurable fun s : Lat I × Ω => G s.2 s.1)
    (hG2 : MemLp (fun s : Lat I × Ω => G s.2 s.1) 2 ((posterior l).prod P)) {Λ : ℝ}
    (hLip : ∀ ω x y, ‖G ω x - G ω y‖ ≤ Λ * ‖x - y‖) (now : V → Bool) {A τ : ℝ} (hA : 0 ≤ A)
    {σ : V → ℝ} (hσ : ∀ v, σ v ≠ 0) {k : (v : V) → I v → J v} (hk : ∀ v, Function.Surjective (k v)) (vec : Bool)
    (hM : ∀ (p : Lat I) v i, τ * (maybeMeanSq vec (p v) i - 1) = σ v * excess σ k p v (k v i))
    {f : (Lat I × Lat I) × Lat I → ℝ} (hf : ContDiff ℝ 3 f) (hc : HasCompactSupport f) :
    Tendsto (fun h : ℝ => ((∫ s : NDraws I J Ω, f (nScaled h fun v =>
        sgnht2 (h ^ 2) (A * h) τ vec (G s.2.1) now s.1.1.2.2 s.2.2 v (nState h s.1.1.1 s.1.1.2.1 (fric A σ k s.1.2)))
          ∂nDraws l J P) - ∫ x, f (x.1, fric A σ k x.2) ∂((posterior l).prod (normals I)).prod (normals J)) / h) (𝓝[>] 0)
      (𝓝 0) := by
  have _ := hl.prob
  wlog hΛ : 0 ≤ Λ generalizing Λ
  · exact this (Λ := |Λ|) (fun ω x y => (hLip ω x y).trans
      (mul_le_mul_of_nonneg_right (le_abs_self _) (norm_nonneg _))) (abs_nonneg _)
  have hF := Test.fric (⟨hf, hc⟩ : Test f) A hσ hk
  have hc2 : √(2 * A) ^ 2 / 2 = A := by
    rw [Real.sq_sqrt (by linarith)]
    ring
  have hG1 : Integrable (fun s : Lat I × Ω => G s.2 s.1) ((posterior l).prod P) :=
    (hG2.mono_exponent (by norm_num : (1 : ENNReal) ≤ 2)).integrable le_rfl
  have hGc : ∀ ω, Continuous (G ω) := fun ω => (LipschitzWith.of_dist_le_mul (K := ⟨Λ, hΛ⟩) fun x y => by
    rw [dist_eq_norm, dist_eq_norm]
    exact hLip ω x y).continuous
  set W' := ((posterior l).prod (normals I)).prod (P.prod (normals I)) with hW'
  have pG : MeasurePreserving (fun s : (Lat I × Lat I) × Ω × Lat I => (s.1.1, s.2.1)) W' ((posterior l).prod P) :=
    measurePreserving_fst.prod measurePreserving_fst
  have pz : MeasurePreserving (fun s : (Lat I × Lat I) × Ω × Lat I => s.2.2) W' (normals I) :=
    measurePreserving_snd.comp measurePreserving_snd
  have pp : MeasurePreserving (fun s : (Lat I × Lat I) × Ω × Lat I => s.1.2) W' (normals I) :=
    measurePreserving_snd.comp measurePreserving_fst
  have m1 : Integrable (fun s : (Lat I × Lat I) × Ω × Lat I => (1 + ‖s.1.2‖ + ‖G s.2.1 s.1.1‖ + ‖s.2.2‖) ^ 2) W' := by
    have : MemLp (fun s : (Lat I × Lat I) × Ω × Lat I => 1 + ‖s.1.2‖ + ‖G s.2.1 s.1.1‖ + ‖s.2.2‖) 2 W' :=
      (((memLp_const (1 : ℝ)).add ((id_memLp (I := I) 2).comp_measurePreserving pp).norm).add
        (hG2.comp_measurePreserving pG).norm).add ((id_memLp (I := I) 2).comp_measurePreserving pz).norm
    exact this.integrable_sq
  have m2 : Integrable (fun s : (Lat I × Lat I) × Ω × Lat I => (1 + ‖s.1.2‖ + ‖s.2.2‖) ^ 3) W' := by
    have : MemLp (fun s : (Lat I × Lat I) × Ω × Lat I => 1 + ‖s.1.2‖ + ‖s.2.2‖) 3 W' :=
      ((memLp_const (1 : ℝ)).add ((id_memLp (I := I) 3).comp_measurePreserving pp).norm).add
        ((id_memLp (I := I) 3).comp_measurePreserving pz).norm
    have h3 := this.integrable_norm_pow (by norm_num)
    refine h3.congr (Eventually.of_forall fun s => ?_)
    simp only
    rw [Real.norm_of_nonneg (by positivity)]
  refine nht_limit hl P hG hG1 now hc2 (σ := σ) (k := k) (κ := 1 + 2 * ∑ v, |σ v|) (f := fun x => f (x.1, fric A σ k x.2))
    (step := fun h s => (nStart now s).1 + √h • (((0 : Lat I), √(2 * A) • s.2.2), (0 : Lat J)) +
      h • nht2B A σ k G h (nStart now s))
    (b := nht2B A σ k G) ((m2.add m1).const_mul (Real.exp (2 * ((∑ v, |σ v|) ^ 2 * size I)) *
      ((1 + Λ + √(2 * A)) + (∑ v, |σ v|) * size I * ((1 + Λ + √(2 * A)) ^ 2 + 1) +
        (A + ∑ v, |σ v| + (∑ v, |σ v|) * (∑ v, |σ v|) * size I) * (1 + √(2 * A)) + (1 + Λ))))
    (fun h => (nht2_meas hGm h).aestronglyMeasurable)
    (fun h h1 h2 s => nht2_bound hA hΛ hLip rfl rfl rfl h1 h2 s) (fun s => nht2_tendsto hGc s)
    (fun h hh s => rfl) hF |>.congr' ?_
  filter_upwards [self_mem_nhdsWithin] with h hh
  congr 2
  refine integral_congr_ae (Eventually.of_forall fun s => ?_)
  simp only
  congr 1
  exact nht2_form G now vec hM hh s

theorem vector_excess {τ : ℝ} (hτ : 0 < τ) (p : Lat I) (v : V) (i : I v) :
    τ * (maybeMeanSq true (p v) i - 1) = √τ * excess (fun _ => √τ) (fun _ => id) p v i := by
  classical
  simp only [maybeMeanSq, if_true, excess, id]
  rw [Finset.sum_ite_eq' Finset.univ i, if_pos (Finset.mem_univ i), ← mul_assoc, Real.mul_self_sqrt hτ.le]

theorem scalar_excess [∀ v, Nonempty (I v)] {τ : ℝ} (hτ : 0 < τ) (p : Lat I) (v : V) (i : I v) :
    τ * (maybeMeanSq false (p v) i - 1) = √(τ / Fintype.card (I v)) *
      excess (J := fun _ => Unit) (fun v => √(τ / Fintype.card (I v))) (fun _ _ => ()) p v () := by
  have hn : (0 : ℝ) < Fintype.card (I v) := by exact_mod_cast Fintype.card_pos
  simp only [maybeMeanSq, Bool.false_eq_true, if_false, excess, if_true, meanK]
  rw [← mul_assoc, Real.mul_self_sqrt (by positivity), Finset.sum_sub_distrib, Finset.sum_const, Finset.card_univ,
    nsmul_eq_mul, mul_one]
  field_simp

/-- The first order SGNHT with a friction for every component, on any smooth model.  With step size `h` the learning rate
is `h²` and the extra variance `A h`.  If the position has the posterior distribution, the momentum is normal with variance
`h²` and the frictions are normal with mean `A h` and variance `h²` times the tuning rate, one iteration leaves the mean of
every test function of position, momentum and frictions as it is to first order. -/
theorem C90_sgnht1 {l : Lat I → ℝ} (hl : LogDens l) (P : Measure Ω) [IsProbabilityMeasure P]
    {G : Ω → Lat I → Lat I} (hG : Unbiased P G l)
    (hG2 : MemLp (fun s : Lat I × Ω => G s.2 s.1) 2 ((posterior l).prod P)) (now : V → Bool) {A τ : ℝ} (hA : 0 ≤ A)
    (hτ : 0 < τ) {f : (Lat I × Lat I) × Lat I → ℝ} (hf : ContDiff ℝ 3 f) (hc : HasCompactSupport f) :
    Tendsto (fun h : ℝ => ((∫ s : NDraws I I Ω, f (nScaled h fun v =>
        sgnht1 (h ^ 2) (A * h) τ true (G s.2.1) now s.1.1.2.2 s.2.2 v
          (nState h s.1.1.1 s.1.1.2.1 fun v i => A + √τ * s.1.2 v i)) ∂nDraws l I P) -
        ∫ x : (Lat I × Lat I) × Lat I, f (x.1, fun v i => A + √τ * x.2 v i)
          ∂((posterior l).prod (normals I)).prod (normals I)) / h) (𝓝[>] 0) (𝓝 0) :=
  nht1_limit hl P hG hG2 now hA (σ := fun _ => √τ) (fun _ => (Real.sqrt_pos.2 hτ).ne') (k := fun _ => id)
    (fun _ => Function.surjective_id) true (vector_excess hτ) hf hc

/-- The first order SGNHT with one friction for a variable. -/
theorem C90_sgnht1_scalar [∀ v, Nonempty (I v)] {l : Lat I → ℝ} (hl : LogDens l) (P : Measure Ω) [IsProbabilityMeasure P]
    {G : Ω → Lat I → Lat I} (hG : Unbiased P G l)
    (hG2 : MemLp (fun s : Lat I × Ω => G s.2 s.1) 2 ((posterior l).prod P)) (now : V → Bool) {A τ : ℝ} (hA : 0 ≤ A)
    (hτ : 0 < τ) {f : (Lat I × Lat I) × Lat I → ℝ} (hf : ContDiff ℝ 3 f) (hc : HasCompactSupport f) :
    Tendsto (fun h : ℝ => ((∫ s : NDraws I (fun _ => Unit) Ω, f (nScaled h fun v =>
        sgnht1 (h ^ 2) (A * h) τ false (G s.2.1) now s.1.1.2.2 s.2.2 v
          (nState h s.1.1.1 s.1.1.2.1 fun v _ => A + √(τ / Fintype.card (I v)) * s.1.2 v ())) ∂nDraws l (fun _ => Unit) P) -
        ∫ x : (Lat I × Lat I) × Lat fun _ : V => Unit, f (x.1, fun v _ => A + √(τ / Fintype.card (I v)) * x.2 v ())
          ∂((posterior l).prod (normals I)).prod (normals fun _ => Unit)) / h) (𝓝[>] 0) (𝓝 0) :=
  nht1_limit hl P hG hG2 now hA (σ := fun v => √(τ / Fintype.card (I v)))
    (fun v => (Real.sqrt_pos.2 (div_pos hτ (by exact_mod_cast Fintype.card_pos))).ne') (k := fun _ _ => ())
    (fun v _ => ⟨Classical.arbitrary _, rfl⟩) false (scalar_excess hτ) hf hc

/-- The second order SGNHT, the default, with a friction for every component. -/
theorem C90_sgnht2 {l : Lat I → ℝ} (hl : LogDens l) (P : Measure Ω) [IsProbabilityMeasure P]
    {G : Ω → Lat I → Lat I} (hG : Unbiased P G l) (hGm : Measurable fun s : Lat I × Ω => G s.2 s.1)
    (hG2 : MemLp (fun s : Lat I × Ω => G s.2 s.1) 2 ((posterior l).prod P)) {Λ : ℝ}
    (hLip : ∀ ω x y, ‖G ω x - G ω y‖ ≤ Λ * ‖x - y‖) (now : V → Bool) {A τ : ℝ} (hA : 0 ≤ A)
    (hτ : 0 < τ) {f : (Lat I × Lat I) × Lat I → ℝ} (hf : ContDiff ℝ 3 f) (hc : HasCompactSupport f) :
    Tendsto (fun h : ℝ => ((∫ s : NDraws I I Ω, f (nScaled h fun v =>
        sgnht2 (h ^ 2) (A * h) τ true (G s.2.1) now s.1.1.2.2 s.2.2 v
          (nState h s.1.1.1 s.1.1.2.1 fun v i => A + √τ * s.1.2 v i)) ∂nDraws l I P) -
        ∫ x : (Lat I × Lat I) × Lat I, f (x.1, fun v i => A + √τ * x.2 v i)
          ∂((posterior l).prod (normals I)).prod (normals I)) / h) (𝓝[>] 0) (𝓝 0) :=
  nht2_limit hl P hG hGm hG2 hLip now hA (σ := fun _ => √τ) (fun _ => (Real.sqrt_pos.2 hτ).ne') (k := fun _ => id)
    (fun _ => Function.surjective_id) true (vector_excess hτ) hf hc

/-- The second order SGNHT with one friction for a variable. -/
theorem C90_sgnht2_scalar [∀ v, Nonempty (I v)] {l : Lat I → ℝ} (hl : LogDens l) (P : Measure Ω) [IsProbabilityMeasure P]
    {G : Ω → Lat I → Lat I} (hG : Unbiased P G l) (hGm : Measurable fun s : Lat I × Ω => G s.2 s.1)
    (hG2 : MemLp (fun s : Lat I × Ω => G s.2 s.1) 2 ((posterior l).prod P)) {Λ : ℝ}
    (hLip : ∀ ω x y, ‖G ω x - G ω y‖ ≤ Λ * ‖x - y‖) (now : V → Bool) {A τ : ℝ} (hA : 0 ≤ A)
    (hτ : 0 < τ) {f : (Lat I × Lat I) × Lat I → ℝ} (hf : ContDiff ℝ 3 f) (hc : HasCompactSupport f) :
    Tendsto (fun h : ℝ => ((∫ s : NDraws I (fun _ => Unit) Ω, f (nScaled h fun v =>
        sgnht2 (h ^ 2) (A * h) τ false (G s.2.1) now s.1.1.2.2 s.2.2 v
          (nState h s.1.1.1 s.1.1.2.1 fun v _ => A + √(τ / Fintype.card (I v)) * s.1.2 v ())) ∂nDraws l (fun _ => Unit) P) -
        ∫ x : (Lat I × Lat I) × Lat fun _ : V => Unit, f (x.1, fun v _ => A + √(τ / Fintype.card (I v)) * x.2 v ())
          ∂((posterior l).prod (normals I)).prod (normals fun _ => Unit)) / h) (𝓝[>] 0) (𝓝 0) :=
  nht2_limit hl P hG hGm hG2 hLip now hA (σ := fun v => √(τ / Fintype.card (I v)))
    (fun v => (Real.sqrt_pos.2 (div_pos hτ (by exact_mod_cast Fintype.card_pos))).ne') (k := fun _ _ => ())
    (fun v _ => ⟨Classical.arbitrary _, rfl⟩) false (scalar_excess hτ) hf hc

end ZhuSuan.Sgmcmc
