import Verif.Lemmas.SgldCoupling

/-!
# The distance of the two chains over an epoch
-/

set_option autoImplicit false

open MeasureTheory ProbabilityTheory Filter Topology Set
open ZhuSuan.Sgmcmc

namespace ZhuSuan.SgWeak

variable {V : Type} {I : V → Type} [Fintype V] [∀ v, Fintype (I v)] {Ω : Type} [MeasurableSpace Ω]
  {l : Lat I → ℝ} {m L : ℝ} {G : ℕ → Ω → Lat I → Lat I} {P : Measure Ω} {T : ℕ} {Γ : Measure (Lat I × Lat I)} {lr : ℝ}

theorem meas_nsq {S : Type*} [MeasurableSpace S] {X : S → Lat I} (hX : Measurable X) {W : Measure S} :
    AEStronglyMeasurable (fun s => nsq (X s)) W := (continuous_nsq.measurable.comp hX).aestronglyMeasurable

theorem step_int (hl : StrongConcave l m L) (hE : Estimates P G T l L) {t : ℕ} (ht : t < T) {X : Pair I Ω → Lat I}
    (hX : Measurable X) : ∫ s, nsq (X s) ∂cpl lr l G P Γ (t + 1) =
      ∫ s, nsq (X (both lr l (G t) s)) ∂(cpl lr l G P Γ t).prod ((normals I).prod Hmc.unif) := by
  have mp : MeasurePreserving (both lr l (G t)) ((cpl lr l G P Γ t).prod ((normals I).prod Hmc.unif)) (cpl lr l G P Γ (t + 1)) :=
    ⟨both_meas hl (hE.meas t ht) lr, rfl⟩
  exact (mp_int mp (f := fun s => nsq (X s)) (meas_nsq hX)).symm

theorem now_int {Θ : Measure (Pair I Ω)} [SFinite Θ] {X : Pair I Ω → Lat I} (hX : Measurable X) :
    ∫ s : Pair I Ω × Lat I × ℝ, nsq (X s.1) ∂Θ.prod ((normals I).prod Hmc.unif) = ∫ s, nsq (X s) ∂Θ :=
  mp_int (f := fun s => nsq (X s)) (measurePreserving_fst (μ := Θ) (ν := (normals I).prod Hmc.unif)) (meas_nsq hX)

theorem double_le {u : ℕ → ℝ} {w : ℝ} {T : ℕ} (h0 : u 0 = 0) (h : ∀ t < T, u (t + 1) ≤ 2 * u t + w) {t : ℕ} (ht : t ≤ T) :
    u t ≤ (2 ^ t - 1) * w := by
  induction t with
  | zero => simp [h0]
  | succ t ih =>
    have h1 := h t ht
    have h2 := ih (by omega)
    rw [pow_succ]
    linarith

/-- The second moments along an epoch. -/
structure Moments (a b c D : ℕ → ℝ) (T : ℕ) (m L M σ δ q ρ lr η : ℝ) : Prop where
  b0 : b 0 = 0
  c0 : c 0 = 0
  an : ∀ t, 0 ≤ a t
  as : ∀ t < T, a (t + 1) ≤ (2 + 2 * L ^ 2) * a t + 2 * σ + 4 * δ
  bs : ∀ t < T, b (t + 1) ≤ 2 * b t + lr * (2 * σ + 2 * L ^ 2 * a t + 4 * δ)
  cs : ∀ t < T, c (t + 1) ≤ 2 * c t + lr ^ 2 * (4 * σ + 4 * L ^ 2 * a t + 4 * L ^ 2 * M + 4 * q) + 4 * ρ
  Ds : ∀ t < T, D (t + 1) ≤ (1 - m * lr / 4) * D t + 2 * lr * η * D 0 + 2 * (lr * L ^ 2 * η⁻¹ * b t + 2 * c t +
    lr ^ 2 * (2 * σ + 5 * L ^ 2 * a t + L ^ 2 * M + 2 * q)) + (1 + 4 / (m * lr)) * ρ

/-- The constant of the quadratic terms. -/
noncomputable def bigK (T : ℕ) (L M σ δ q η : ℝ) : ℝ :=
  2 * (L ^ 2 * η⁻¹ * (2 ^ T * ((2 + 2 * L ^ 2 + 2 * σ + 4 * δ) * (3 + 2 * L ^ 2 + 2 * σ + 4 * δ) ^ T)) +
    2 * (2 ^ T * ((4 * σ + 4 * L ^ 2 + 4 * L ^ 2 * M + 4 * q + 4) * (3 + 2 * L ^ 2 + 2 * σ + 4 * δ) ^ T)) +
    (2 * σ + 5 * L ^ 2 + L ^ 2 * M + 2 * q) * (3 + 2 * L ^ 2 + 2 * σ + 4 * δ) ^ T)

theorem bigK_nonneg {T : ℕ} {L M σ δ q η : ℝ} (hM : 0 ≤ M) (hσ : 0 ≤ σ) (hδ : 0 ≤ δ) (hq : 0 ≤ q) (hη : 0 < η) :
    0 ≤ bigK T L M σ δ q η := by
  unfold bigK
  positivity

theorem Moments.bound {a b c D : ℕ → ℝ} {T : ℕ} {m L M σ δ q ρ lr η : ℝ} (h : Moments a b c D T m L M σ δ q ρ lr η)
    (hM : 0 ≤ M) (hσ : 0 ≤ σ) (hδ : 0 ≤ δ) (hq : 0 ≤ q) (hη : 0 < η) (h0 : 0 < lr) (hρ : ρ ≤ lr ^ 2) {t : ℕ} (ht : t < T) :
    D (t + 1) ≤ (1 - m * lr / 4) * D t + 2 * lr * η * D 0 + lr ^ 2 * (bigK T L M σ δ q η * (1 + a 0)) + (1 + 4 / (m * lr)) * ρ := by
  set κ : ℝ := 2 + 2 * L ^ 2 + 2 * σ + 4 * δ with hκ
  have hκ0 : 0 ≤ κ := by positivity
  set κ' : ℝ := 4 * σ + 4 * L ^ 2 + 4 * L ^ 2 * M + 4 * q + 4 with hκ'
  have hκ'0 : 0 ≤ κ' := by positivity
  set Qq : ℝ := (1 + κ) ^ T * (1 + a 0) with hQ
  have ha0 := h.an 0
  have hQ0 : 0 ≤ Qq := by positivity
  have ea : ∀ t ≤ T, 1 + a t ≤ (1 + κ) ^ t * (1 + a 0) := by
    intro t ht
    induction t with
    | zero => simp
    | succ t ih =>
      have h1 := h.as t ht
      have h2 := ih (by omega)
      have h3 := mul_le_mul_of_nonneg_left h2 (by positivity : 0 ≤ 1 + κ)
      rw [pow_succ, mul_comm ((1 + κ) ^ t), mul_assoc]
      refine le_trans ?_ h3
      have h4 := h.an t
      rw [hκ]
      nlinarith [mul_nonneg hσ h4, mul_nonneg hδ h4, sq_nonneg L]
  have eQ : ∀ t ≤ T, 1 + a t ≤ Qq := fun t ht => (ea t ht).trans
    (mul_le_mul_of_nonneg_right (pow_le_pow_right₀ (by linarith) ht) (by positivity))
  have hT2 : (2 : ℝ) ^ t - 1 ≤ 2 ^ T := by
    have : (2 : ℝ) ^ t ≤ 2 ^ T := pow_le_pow_right₀ (by norm_num) ht.le
    linarith
  have eb : b t ≤ lr * (2 ^ T * (κ * Qq)) := by
    have h1 := double_le (u := b) (w := lr * (κ * Qq)) (T := T) h.b0 (fun t ht => ?_) ht.le
    · refine h1.trans ?_
      have := mul_le_mul_of_nonneg_right hT2 (by positivity : 0 ≤ lr * (κ * Qq))
      linarith
    · refine (h.bs t ht).trans ?_
      have h2 := eQ t ht.le
      have h4 := h.an t
      have h3 : 2 * σ + 2 * L ^ 2 * a t + 4 * δ ≤ κ * (1 + a t) := by
        rw [hκ]
        nlinarith [mul_nonneg hσ h4, mul_nonneg hδ h4, sq_nonneg L]
      have h5 := mul_le_mul_of_nonneg_left (h3.trans (mul_le_mul_of_nonneg_left h2 hκ0)) h0.le
      linarith
  have ec : c t ≤ lr ^ 2 * (2 ^ T * (κ' * Qq)) := by
    have h1 := double_le (u := c) (w := lr ^ 2 * (κ' * Qq)) (T := T) h.c0 (fun t ht => ?_) ht.le
    · refine h1.trans ?_
      have := mul_le_mul_of_nonneg_right hT2 (by positivity : 0 ≤ lr ^ 2 * (κ' * Qq))
      linarith
    · refine (h.cs t ht).trans ?_
      have h2 := eQ t ht.le
      have h4 := h.an t
      have h3 : 4 * σ + 4 * L ^ 2 * a t + 4 * L ^ 2 * M + 4 * q + 4 ≤ κ' * (1 + a t) := by
        rw [hκ']
        nlinarith [mul_nonneg hσ h4, mul_nonneg hq h4, sq_nonneg L, mul_nonneg (mul_nonneg (sq_nonneg L) hM) h4]
      have h5 := mul_le_mul_of_nonneg_left (h3.trans (mul_le_mul_of_nonneg_left h2 hκ'0)) (sq_nonneg lr)
      linarith
  have ed : 2 * σ + 5 * L ^ 2 * a t + L ^ 2 * M + 2 * q ≤ (2 * σ + 5 * L ^ 2 + L ^ 2 * M + 2 * q) * Qq := by
    have h2 := eQ t ht.le
    have h4 := h.an t
    have h5 : 0 ≤ 2 * σ + 5 * L ^ 2 + L ^ 2 * M + 2 * q := by positivity
    refine le_trans ?_ (mul_le_mul_of_nonneg_left h2 h5)
    nlinarith [mul_nonneg hσ h4, mul_nonneg hq h4, sq_nonneg L, mul_nonneg (mul_nonneg (sq_nonneg L) hM) h4]
  refine (h.Ds t ht).trans ?_
  have f1 := mul_le_mul_of_nonneg_left eb (by positivity : 0 ≤ lr * L ^ 2 * η⁻¹)
  have f2 := mul_le_mul_of_nonneg_left ed (sq_nonneg lr)
  have f3 : lr ^ 2 * (bigK T L M σ δ q η * (1 + a 0)) = 2 * (lr * L ^ 2 * η⁻¹ * (lr * (2 ^ T * (κ * Qq))) +
      2 * (lr ^ 2 * (2 ^ T * (κ' * Qq))) + lr ^ 2 * ((2 * σ + 5 * L ^ 2 + L ^ 2 * M + 2 * q) * Qq)) := by
    have e : 3 + 2 * L ^ 2 + 2 * σ + 4 * δ = 1 + κ := by rw [hκ]; ring
    rw [bigK, e, ← hκ, ← hκ', hQ]
    ring
  rw [f3]
  linarith

/-- The mean squared noise of the gradient estimates at the origin. -/
noncomputable def noise (G : ℕ → Ω → Lat I → Lat I) (P : Measure Ω) (T : ℕ) : ℝ := ∑ t ∈ Finset.range T, ∫ ω, nsq (G t ω 0) ∂P

theorem noise_nonneg : 0 ≤ noise G P T := Finset.sum_nonneg fun _ _ => integral_nonneg fun _ => nsq_nonneg _

theorem noise_le {t : ℕ} (ht : t < T) : ∫ ω, nsq (G t ω 0) ∂P ≤ noise G P T :=
  Finset.single_le_sum (f := fun t => ∫ ω, nsq (G t ω 0) ∂P) (fun _ _ => integral_nonneg fun _ => nsq_nonneg _)
    (Finset.mem_range.2 ht)

/-- The mean squared distance of the chains. -/
noncomputable def gap (lr : ℝ) (l : Lat I → ℝ) (G : ℕ → Ω → Lat I → Lat I) (P : Measure Ω) (Γ : Measure (Lat I × Lat I)) (t : ℕ) : ℝ :=
  ∫ s : Pair I Ω, nsq (s.2.1 - s.2.2) ∂cpl lr l G P Γ t

theorem moments (hl : StrongConcave l m L) [IsProbabilityMeasure P] (hE : Estimates P G T l L) (hΓ : Start l Γ)
    (h0 : 0 < lr) (h1 : lr ≤ 1) (hm : m * lr ≤ 1) (hL : lr * L ^ 2 ≤ 2 * m) {η : ℝ} (hη : 0 < η) :
    Moments (fun t => ∫ s : Pair I Ω, nsq s.2.1 ∂cpl lr l G P Γ t) (fun t => ∫ s : Pair I Ω, nsq (s.2.1 - s.1.1.1) ∂cpl lr l G P Γ t)
      (fun t => ∫ s : Pair I Ω, nsq (s.2.1 - s.2.2 - (s.1.1.1 - s.1.1.2)) ∂cpl lr l G P Γ t) (gap lr l G P Γ) T m L
      (∫ y, nsq y ∂posterior l) (noise G P T) (dim I) (nsq (pd l 0)) (rho l lr) lr η := by
  have _ := hΓ.prob
  have mx : Measurable fun s : Pair I Ω => s.2.1 := by fun_prop
  have mxx : Measurable fun s : Pair I Ω => s.2.1 - s.1.1.1 := by fun_prop
  have md : Measurable fun s : Pair I Ω => s.2.1 - s.2.2 := by fun_prop
  have md0 : Measurable fun s : Pair I Ω => s.1.1.1 - s.1.1.2 := by fun_prop
  have mdd : Measurable fun s : Pair I Ω => s.2.1 - s.2.2 - (s.1.1.1 - s.1.1.2) := md.sub md0
  have hz : MeasurePreserving (fun a : (Lat I × Lat I) × Ω => ((a, a.1) : Pair I Ω)) (Γ.prod P) (cpl lr l G P Γ 0) :=
    ⟨by fun_prop, rfl⟩
  have hD0 : ∀ t ≤ T, ∫ s : Pair I Ω, nsq (s.1.1.1 - s.1.1.2) ∂cpl lr l G P Γ t = gap lr l G P Γ 0 := by
    intro t ht
    have e1 := mp_int (f := fun a : (Lat I × Lat I) × Ω => nsq (a.1.1 - a.1.2)) (inv_all hl hE hΓ lr ht).start
      (meas_nsq (by fun_prop))
    have e2 := mp_int (f := fun s : Pair I Ω => nsq (s.2.1 - s.2.2)) hz (meas_nsq md)
    exact e1.trans e2
  refine ⟨?_, ?_, fun t => integral_nonneg fun _ => nsq_nonneg _, fun t ht => ?_, fun t ht => ?_, fun t ht => ?_, fun t ht => ?_⟩
  · have e2 := mp_int (f := fun s : Pair I Ω => nsq (s.2.1 - s.1.1.1)) hz (meas_nsq mxx)
    simp only at e2
    rw [← e2]
    simp
  · have e2 := mp_int (f := fun s : Pair I Ω => nsq (s.2.1 - s.2.2 - (s.1.1.1 - s.1.1.2))) hz (meas_nsq mdd)
    simp only at e2
    rw [← e2]
    simp
  · have hi := inv_all hl hE hΓ lr ht.le
    have _ := hi.prob
    have k := (hi.before hl hE hΓ ht).sq_next hl h0 h1
    rw [now_int mx] at k
    rw [step_int hl hE ht mx]
    refine k.trans ?_
    have := noise_le (G := G) (P := P) ht
    linarith
  · have hi := inv_all hl hE hΓ lr ht.le
    have _ := hi.prob
    have k := (hi.before hl hE hΓ ht).move_next hl h0 h1
    rw [now_int mx, now_int mxx] at k
    rw [step_int hl hE ht mxx]
    refine k.trans ?_
    have := noise_le (G := G) (P := P) ht
    nlinarith
  · have hi := inv_all hl hE hΓ lr ht.le
    have _ := hi.prob
    have k := (hi.before hl hE hΓ ht).diff_next hl h0
    rw [now_int mx, now_int mdd] at k
    rw [step_int hl hE ht mdd]
    refine k.trans ?_
    have := mul_le_mul_of_nonneg_left (noise_le (G := G) (P := P) ht) (sq_nonneg lr)
    linarith
  · have hi := inv_all hl hE hΓ lr ht.le
    have _ := hi.prob
    have k := (hi.before hl hE hΓ ht).main_next hl h0 hm hL hη
    rw [now_int mx, now_int mdd, now_int md, now_int mxx, now_int md0, hD0 t ht.le] at k
    rw [gap, step_int hl hE ht md]
    refine k.trans ?_
    have := mul_le_mul_of_nonneg_left (noise_le (G := G) (P := P) ht) (sq_nonneg lr)
    rw [← gap]
    linarith

/-- A recursion with a contraction over an epoch. -/
theorem contract_le {D : ℕ → ℝ} {s w : ℝ} (hs0 : 0 ≤ s) (hs1 : s ≤ 1) (hw : 0 ≤ w) {T : ℕ}
    (h : ∀ t < T, D (t + 1) ≤ (1 - s) * D t + w) {t : ℕ} (ht : t ≤ T) : D t ≤ (1 - s) ^ t * D 0 + t * w := by
  induction t with
  | zero => simp
  | succ t ih =>
    have h1 := h t ht
    have h2 := mul_le_mul_of_nonneg_left (ih (by omega)) (by linarith : 0 ≤ 1 - s)
    have h3 : 0 ≤ (t : ℝ) * w * s := by positivity
    push_cast
    rw [pow_succ]
    nlinarith

theorem pow_le_half {s : ℝ} (hs0 : 0 ≤ s) (hs1 : s ≤ 1) {T : ℕ} (hT : T * s ≤ 1) : (1 - s) ^ T ≤ 1 - T * s / 2 := by
  have h1 := one_add_mul_le_pow (by linarith : (-2 : ℝ) ≤ s) T
  have h2 : (1 - s) ^ T * (1 + s) ^ T ≤ 1 := by
    rw [← mul_pow]
    exact pow_le_one₀ (mul_nonneg (by linarith) (by linarith)) (by nlinarith)
  have h0 : 0 ≤ (1 - s) ^ T := pow_nonneg (by linarith) T
  have h3 : (1 - s) ^ T * (1 + T * s) ≤ 1 := (mul_le_mul_of_nonneg_left h1 h0).trans h2
  have h4 : 0 ≤ (T : ℝ) * s := by positivity
  nlinarith [mul_nonneg h4 (sub_nonneg.2 hT)]

theorem gap_zero [IsProbabilityMeasure P] (hΓ : Start l Γ) : gap lr l G P Γ 0 = ∫ a, nsq (a.1 - a.2) ∂Γ := by
  have _ := hΓ.prob
  have hz : MeasurePreserving (fun a : (Lat I × Lat I) × Ω => ((a, a.1) : Pair I Ω)) (Γ.prod P) (cpl lr l G P Γ 0) :=
    ⟨by fun_prop, rfl⟩
  have e1 := mp_int (f := fun s : Pair I Ω => nsq (s.2.1 - s.2.2)) hz (meas_nsq (by fun_prop))
  have e2 := mp_int (f := fun a : Lat I × Lat I => nsq (a.1 - a.2)) (measurePreserving_fst (μ := Γ) (ν := P)) (meas_nsq (by fun_prop))
  exact e1.symm.trans e2

theorem first_le (hl : StrongConcave l m L) [IsProbabilityMeasure P] (hΓ : Start l Γ) :
    ∫ s : Pair I Ω, nsq s.2.1 ∂cpl lr l G P Γ 0 ≤ 2 * (∫ y, nsq y ∂posterior l) + 2 * gap lr l G P Γ 0 := by
  have hi : Inv lr l G P Γ 0 := inv_zero hΓ
  have my : MemLp (fun s : Pair I Ω => s.2.2) 2 (cpl lr l G P Γ 0) := hl.memLp_post.comp_measurePreserving hi.post
  have i1 : Integrable (fun s : Pair I Ω => nsq s.2.2) (cpl lr l G P Γ 0) := nsq_int my
  have i2 : Integrable (fun s : Pair I Ω => nsq (s.2.1 - s.2.2)) (cpl lr l G P Γ 0) := nsq_int (hi.mem.sub my)
  have e := mp_int (f := fun y : Lat I => nsq y) hi.post continuous_nsq.aestronglyMeasurable
  rw [← e, gap, ← integral_const_mul, ← integral_const_mul, ← integral_add (i1.const_mul 2) (i2.const_mul 2)]
  refine integral_mono (nsq_int hi.mem) ((i1.const_mul 2).add (i2.const_mul 2)) fun s => ?_
  have := nsq_add_le s.2.2 (s.2.1 - s.2.2)
  rwa [add_sub_cancel] at this

/-- The error of an epoch. -/
noncomputable def err (l : Lat I → ℝ) (m L σ : ℝ) (T : ℕ) (lr : ℝ) : ℝ :=
  lr * (bigK T L (∫ y, nsq y ∂posterior l) σ (dim I) (nsq (pd l 0)) (m / 64) * (1 + 2 * ∫ y, nsq y ∂posterior l)) +
    (1 + 4 / m) * (rho l lr / lr ^ 2)

theorem err_small (hl : StrongConcave l m L) (σ : ℝ) (T : ℕ) : Tendsto (err l m L σ T) (𝓝[>] 0) (𝓝 0) := by
  have h1 : Tendsto (fun lr : ℝ => lr) (𝓝[>] 0) (𝓝 0) := tendsto_id.mono_left nhdsWithin_le_nhds
  have h2 := (h1.mul_const (bigK T L (∫ y, nsq y ∂posterior l) σ (dim I) (nsq (pd l 0)) (m / 64) * (1 + 2 * ∫ y, nsq y ∂posterior l))).add
    (hl.rho_small.const_mul (1 + 4 / m))
  rw [zero_mul, mul_zero, add_zero] at h2
  exact h2

/-- An epoch with a small learning rate brings the chain closer to the one that preserves the posterior. -/
theorem epoch (hl : StrongConcave l m L) [IsProbabilityMeasure P] (hE : Estimates P G T l L) :
    ∀ᶠ lr in 𝓝[>] (0 : ℝ), 0 ≤ err l m L (noise G P T) T lr ∧ T * (m * lr / 16) ≤ 1 ∧ ∀ Γ : Measure (Lat I × Lat I), Start l Γ →
      gap lr l G P Γ T ≤ (1 - T * (m * lr / 16)) * gap lr l G P Γ 0 + T * lr * err l m L (noise G P T) T lr ∧
      ∀ t ≤ T, gap lr l G P Γ t ≤ gap lr l G P Γ 0 + T * lr * (m / 16 * gap lr l G P Γ 0 + err l m L (noise G P T) T lr) := by
  set M := ∫ y, nsq y ∂posterior l with hM
  have hM0 : 0 ≤ M := integral_nonneg fun _ => nsq_nonneg _
  have hσ : 0 ≤ noise G P T := noise_nonneg
  have hm := hl.pos
  set K := bigK T L M (noise G P T) (dim I) (nsq (pd l 0)) (m / 64) with hK
  have hK0 : 0 ≤ K := bigK_nonneg hM0 hσ dim_nonneg (nsq_nonneg _) (by positivity)
  have small : ∀ c : ℝ, ∀ d > 0, ∀ᶠ lr in 𝓝[>] (0 : ℝ), c * lr ≤ d := by
    intro c d hd
    have h1 : Tendsto (fun lr : ℝ => c * lr) (𝓝[>] 0) (𝓝 (c * 0)) :=
      (tendsto_id.mono_left nhdsWithin_le_nhds).const_mul c
    rw [mul_zero] at h1
    filter_upwards [h1.eventually_lt_const hd] with lr h using h.le
  have hr : ∀ᶠ lr in 𝓝[>] (0 : ℝ), rho l lr / lr ^ 2 < 1 := hl.rho_small.eventually_lt_const one_pos
  filter_upwards [self_mem_nhdsWithin, small 1 1 one_pos, small m 1 one_pos, small (L ^ 2) (2 * m) (by positivity), hr,
    small (2 * K) (m / 32) (by positivity), small (T * m / 4) 1 one_pos] with lr h0 h1 h2 h3 h4 h5 h6
  have h0 : 0 < lr := h0
  have hρ0 := rho_nonneg l lr
  have he : err l m L (noise G P T) T lr = lr * (K * (1 + 2 * M)) + (1 + 4 / m) * (rho l lr / lr ^ 2) := rfl
  have he0 : 0 ≤ err l m L (noise G P T) T lr := by rw [he]; positivity
  refine ⟨he0, by nlinarith [mul_nonneg (Nat.cast_nonneg (α := ℝ) T) hm.le], fun Γ hΓ => ?_⟩
  have hρ : rho l lr ≤ lr ^ 2 := ((div_lt_one (by positivity)).1 h4).le
  have hmo := moments hl hE hΓ h0 (by linarith) h2 (by linarith) (by positivity : 0 < m / 64)
  set D := gap lr l G P Γ with hD
  have hD0 : 0 ≤ D 0 := integral_nonneg fun _ => nsq_nonneg _
  set e := err l m L (noise G P T) T lr with hee
  have step : ∀ t < T, D (t + 1) ≤ (1 - m * lr / 4) * D t + lr * (m / 16 * D 0 + e) := by
    intro t ht
    have hb := hmo.bound hM0 hσ dim_nonneg (nsq_nonneg _) (by positivity) h0 hρ ht
    rw [← hK] at hb
    have hf := first_le (lr := lr) (G := G) (P := P) hl hΓ
    rw [← hM, ← hD] at hf
    refine hb.trans ?_
    have f1 : lr ^ 2 * (K * (1 + ∫ s : Pair I Ω, nsq s.2.1 ∂cpl lr l G P Γ 0)) ≤ lr ^ 2 * (K * (1 + (2 * M + 2 * D 0))) := by
      gcongr
    have f2 : lr * (lr * (2 * K) * D 0) ≤ lr * (m / 32 * D 0) := by
      have : lr * (2 * K) * D 0 ≤ m / 32 * D 0 := mul_le_mul_of_nonneg_right (by linarith) hD0
      exact mul_le_mul_of_nonneg_left this h0.le
    have f3 : (1 + 4 / (m * lr)) * rho l lr ≤ lr * ((1 + 4 / m) * (rho l lr / lr ^ 2)) := by
      have e1 : lr * ((1 + 4 / m) * (rho l lr / lr ^ 2)) = (1 / lr + 4 / (m * lr)) * rho l lr := by
        field_simp
      rw [e1]
      have : (1 : ℝ) ≤ 1 / lr := by
        rw [le_div_iff₀ h0]
        linarith
      exact mul_le_mul_of_nonneg_right (by linarith) hρ0
    rw [he]
    nlinarith
  have hs0 : 0 ≤ m * lr / 4 := by positivity
  have hs1 : m * lr / 4 ≤ 1 := by linarith
  have hw : 0 ≤ lr * (m / 16 * D 0 + e) := by positivity
  refine ⟨?_, fun t ht => ?_⟩
  · have k := contract_le hs0 hs1 hw step le_rfl
    have k2 := mul_le_mul_of_nonneg_right (pow_le_half (T := T) hs0 hs1 (by linarith)) hD0
    nlinarith
  · have k := contract_le hs0 hs1 hw step ht
    have k2 : (1 - m * lr / 4) ^ t * D 0 ≤ D 0 := by
      have := mul_le_mul_of_nonneg_right (pow_le_one₀ (n := t) (by linarith : 0 ≤ 1 - m * lr / 4) (by linarith)) hD0
      linarith
    have k3 : (t : ℝ) * (lr * (m / 16 * D 0 + e)) ≤ T * (lr * (m / 16 * D 0 + e)) :=
      mul_le_mul_of_nonneg_right (by exact_mod_cast ht) hw
    linarith

end ZhuSuan.SgWeak
