import Mathlib.Algebra.Order.Chebyshev
import Mathlib.Data.Matrix.ColumnRowPartitioned
import Verif.Lemmas.GaussExists

/-!
# C85  Stochastic gradient MCMC on a normal posterior
-/

set_option autoImplicit false

open MeasureTheory ProbabilityTheory Matrix Filter Topology

namespace ZhuSuan.Sgmcmc

/-! ## Algebra -/

section Algebra

variable {K : Type} [Fintype K] [DecidableEq K]

theorem mul_one_sub_inv {M : Matrix K K ℝ} (h : M.PosDef) : M * M⁻¹ = 1 ∧ M⁻¹ * M = 1 := by
  have := (Matrix.isUnit_iff_isUnit_det _).1 h.isUnit
  exact ⟨mul_nonsing_inv _ this, nonsing_inv_mul _ this⟩

/-- The resolvent of `L` multiplied by `L`. -/
theorem resolvent {L : Matrix K K ℝ} {a b : ℝ} (h : (a • (1 : Matrix K K ℝ) - b • L).PosDef) :
    b • (L * (a • (1 : Matrix K K ℝ) - b • L)⁻¹) = a • (a • (1 : Matrix K K ℝ) - b • L)⁻¹ - 1 ∧
    b • ((a • (1 : Matrix K K ℝ) - b • L)⁻¹ * L) = a • (a • (1 : Matrix K K ℝ) - b • L)⁻¹ - 1 := by
  obtain ⟨h1, h2⟩ := mul_one_sub_inv h
  rw [sub_mul, smul_mul_assoc, one_mul, smul_mul_assoc] at h1
  rw [mul_sub, mul_smul_comm, mul_one, mul_smul_comm] at h2
  exact ⟨by rw [eq_sub_iff_add_eq, add_comm]; exact (sub_eq_iff_eq_add.1 h1).symm,
    by rw [eq_sub_iff_add_eq, add_comm]; exact (sub_eq_iff_eq_add.1 h2).symm⟩

theorem sgld_algebra {L : Matrix K K ℝ} {lr : ℝ} (hL : L.PosDef)
    (hs : ((1 : Matrix K K ℝ) - (lr / 4) • L).PosDef) :
    (1 - (lr / 2) • L) * (L⁻¹ + (lr / 4) • (1 - (lr / 4) • L)⁻¹) * (1 - (lr / 2) • L) + lr • (1 : Matrix K K ℝ) =
      L⁻¹ + (lr / 4) • (1 - (lr / 4) • L)⁻¹ := by
  obtain ⟨l1, l2⟩ := mul_one_sub_inv hL
  have hs' : ((1 : ℝ) • (1 : Matrix K K ℝ) - (lr / 4) • L).PosDef := by simpa using hs
  obtain ⟨r1, r2⟩ := resolvent hs'
  simp only [one_smul] at r1 r2
  generalize (1 - (lr / 4) • L)⁻¹ = R at *
  have hAR : (1 - (lr / 2) • L) * ((lr / 4) • R) = (lr / 4) • (2 • 1 - R) := by
    have : (lr / 2) • (L * R) = 2 • (R - 1) := by
      rw [← r1, ← smul_assoc]
      congr 1
      simp
      ring
    rw [mul_smul_comm, sub_mul, one_mul, smul_mul_assoc, this]
    congr 1
    simp only [two_smul]
    abel
  have hRA : R * (1 - (lr / 2) • L) = 2 • 1 - R := by
    have : (lr / 2) • (R * L) = 2 • (R - 1) := by
      rw [← r2, ← smul_assoc]
      congr 1
      simp
      ring
    rw [mul_sub, mul_one, mul_smul_comm, this]
    simp only [two_smul]
    abel
  have hAL : (1 - (lr / 2) • L) * L⁻¹ = L⁻¹ - (lr / 2) • 1 := by
    rw [sub_mul, one_mul, smul_mul_assoc, l1]
  have hLA : L⁻¹ * (1 - (lr / 2) • L) = L⁻¹ - (lr / 2) • 1 := by
    rw [mul_sub, mul_one, mul_smul_comm, l2]
  rw [mul_add, add_mul, hAL, hAR, sub_mul, hLA, smul_mul_assoc, smul_mul_assoc, sub_mul, hRA]
  simp only [one_mul, smul_sub, two_smul, add_mul, smul_add, smul_smul]
  module

end Algebra

variable {Ω : Type} {mΩ : MeasurableSpace Ω} {P : Measure Ω}
variable {V : Type} {I : V → Type} [Fintype V] [∀ v, Fintype (I v)] [DecidableEq (Comp I)]

/-! ## SGLD -/

/-- How the errors and draws of a call enter the values. -/
noncomputable def sgldC (I : V → Type) [DecidableEq (Comp I)] (lr : ℝ) : Matrix (Comp I) (Comp I ⊕ Comp I) ℝ :=
  fromCols ((lr / 2) • (1 : Matrix (Comp I) (Comp I) ℝ)) (Real.sqrt lr • (1 : Matrix (Comp I) (Comp I) ℝ))

/-- Covariance of the errors and draws of a call. -/
def noiseT (I : V → Type) [DecidableEq (Comp I)] (s2 : ℝ) : Matrix (Comp I ⊕ Comp I) (Comp I ⊕ Comp I) ℝ :=
  fromBlocks (s2 • 1) 0 0 1

theorem sgld_lin (lr : ℝ) (L : Matrix (Comp I) (Comp I) ℝ) (m e z q : Lat I) :
    flat (fun v => sgld lr (noisyGrad L m e) z v q) =
      (lr / 2) • L.mulVec (flat m) + (1 - (lr / 2) • L).mulVec (flat q) +
        (sgldC I lr).mulVec (Sum.elim (flat e) (flat z)) := by
  funext k
  unfold sgldC
  rw [fromCols_mulVec_sumElim, sub_mulVec, one_mulVec, smul_mulVec, smul_mulVec, one_mulVec, smul_mulVec,
    one_mulVec]
  simp only [flat, sgld, noisyGrad, mulVec, dotProduct, Pi.add_apply, Pi.sub_apply, Pi.smul_apply, smul_eq_mul,
    mul_sub, Finset.sum_sub_distrib]
  ring

theorem SgldRun.lin {lr s2 : ℝ} {L : Matrix (Comp I) (Comp I) ℝ} {m : Lat I} {q : ℕ → Ω → Lat I}
    (h : SgldRun P lr L m s2 q) : ∃ W, LinRun P (1 - (lr / 2) • L)
      (sgldC I lr) (noiseT I s2) ((lr / 2) • L.mulVec (flat m))
      (fun n ω => flat (q n ω)) W := by
  obtain ⟨e, z, hn, hf, hs⟩ := h.calls
  refine ⟨fun n ω => Sum.elim (flat (e n ω)) (flat (z n ω)), ⟨fun n ω => ?_, hn, hf⟩⟩
  rw [hs, sgld_lin]

theorem sgld_noise {lr : ℝ} (hlr : 0 ≤ lr) (s2 : ℝ) :
    sgldC I lr * noiseT I s2 * (sgldC I lr)ᵀ = (lr * (1 + lr * s2 / 4)) • 1 := by
  unfold sgldC noiseT
  rw [transpose_fromCols, fromCols_mul_fromBlocks, fromCols_mul_fromRows]
  simp only [mul_zero, add_zero, zero_add, transpose_smul, transpose_one, smul_mul_assoc, mul_smul_comm, mul_one,
    one_mul, smul_smul, ← add_smul]
  congr 1
  have := Real.mul_self_sqrt hlr
  rw [this]
  ring

theorem sgld_mean (lr : ℝ) (L : Matrix (Comp I) (Comp I) ℝ) (m : Lat I) :
    (lr / 2) • L.mulVec (flat m) + (1 - (lr / 2) • L).mulVec (flat m) = flat m := by
  rw [sub_mulVec, one_mulVec, smul_mulVec]
  abel

theorem sgld_fix {lr s2 : ℝ} (hlr : 0 ≤ lr) {L : Matrix (Comp I) (Comp I) ℝ} (hL : L.PosDef)
    (hs : ((1 : Matrix (Comp I) (Comp I) ℝ) - (lr / 4) • L).PosDef) :
    (1 - (lr / 2) • L) * sgldCov lr s2 L * (1 - (lr / 2) • L)ᵀ +
      sgldC I lr * noiseT I s2 * (sgldC I lr)ᵀ = sgldCov lr s2 L := by
  have hsym : Lᵀ = L := by simpa using hL.isHermitian.eq
  rw [sgld_noise hlr, transpose_sub, transpose_smul, transpose_one, hsym]
  unfold sgldCov
  have := congrArg (fun M => (1 + lr * s2 / 4) • M) (sgld_algebra hL hs)
  simp only [smul_add (1 + lr * s2 / 4) ((1 - (lr / 2) • L) * _ * _)] at this
  rw [smul_smul, mul_comm _ lr] at this
  rw [mul_smul_comm, smul_mul_assoc]
  exact this

/-- C85.  The values SGLD has after `n` calls, started from any normal distribution (which includes a fixed
start: covariance 0), are normal, with mean and covariance given in closed form. -/
theorem C85_sgld_law {lr s2 : ℝ} (hlr : 0 < lr) {L : Matrix (Comp I) (Comp I) ℝ} (hL : L.PosDef)
    (hs : ((1 : Matrix (Comp I) (Comp I) ℝ) - (lr / 4) • L).PosDef) {m : Lat I} {q : ℕ → Ω → Lat I}
    (hrun : SgldRun P lr L m s2 q) {m0 : Comp I → ℝ} {S0 : Matrix (Comp I) (Comp I) ℝ}
    (h0 : Normal P (fun ω => flat (q 0 ω)) m0 S0) (n : ℕ) :
    Normal P (fun ω => flat (q n ω)) (flat m + ((1 - (lr / 2) • L) ^ n).mulVec (m0 - flat m))
      (sgldCov lr s2 L + (1 - (lr / 2) • L) ^ n * (S0 - sgldCov lr s2 L) * (1 - (lr / 2) • L) ^ n) := by
  obtain ⟨W, hW⟩ := hrun.lin
  have := hW.law (sgld_mean lr L m) (sgld_fix (s2 := s2) hlr.le hL hs) h0 n
  have hsym : Lᵀ = L := by simpa using hL.isHermitian.eq
  rwa [transpose_pow, transpose_sub, transpose_smul, transpose_one, hsym] at this

/-- C85.  Started from the normal distribution with the mean of the posterior and covariance `sgldCov`, SGLD
keeps it for ever. -/
theorem C85_sgld_stationary {lr s2 : ℝ} (hlr : 0 < lr) {L : Matrix (Comp I) (Comp I) ℝ} (hL : L.PosDef)
    (hs : ((1 : Matrix (Comp I) (Comp I) ℝ) - (lr / 4) • L).PosDef) {m : Lat I} {q : ℕ → Ω → Lat I}
    (hrun : SgldRun P lr L m s2 q) (h0 : Normal P (fun ω => flat (q 0 ω)) (flat m) (sgldCov lr s2 L)) (n : ℕ) :
    Normal P (fun ω => flat (q n ω)) (flat m) (sgldCov lr s2 L) ∧
      P.map (fun ω => flat (q n ω)) = P.map fun ω => flat (q 0 ω) := by
  obtain ⟨W, hW⟩ := hrun.lin
  have := hW.fixed (sgld_mean lr L m) (sgld_fix (s2 := s2) hlr.le hL hs) h0 n
  exact ⟨this, this.unique h0⟩

theorem sgldCov_posDef {lr s2 : ℝ} (hlr : 0 < lr) (hs2 : 0 ≤ s2) {L : Matrix (Comp I) (Comp I) ℝ}
    (hL : L.PosDef) (hs : ((1 : Matrix (Comp I) (Comp I) ℝ) - (lr / 4) • L).PosDef) :
    (sgldCov lr s2 L).PosDef := by
  unfold sgldCov
  exact PosDef.smul (hL.inv.add (PosDef.smul hs.inv (by positivity))) (by positivity)

theorem qf_scalar {K : Type} [Fintype K] [DecidableEq K] (c : ℝ) (u : K → ℝ) :
    qf (c • (1 : Matrix K K ℝ)) u = c * (u ⬝ᵥ u) := by
  simp [qf, smul_mulVec]

/-- C85.  From any normal start, fixed starts included, the law of SGLD's values converges to the normal
distribution with the mean of the posterior and covariance `sgldCov`. -/
theorem C85_sgld_limit {lr s2 : ℝ} (hlr : 0 < lr) (hs2 : 0 ≤ s2) {L : Matrix (Comp I) (Comp I) ℝ}
    (hL : L.PosDef) (hs : ((1 : Matrix (Comp I) (Comp I) ℝ) - (lr / 4) • L).PosDef) {m : Lat I}
    {q : ℕ → Ω → Lat I} (hrun : SgldRun P lr L m s2 q) {m0 : Comp I → ℝ} {S0 : Matrix (Comp I) (Comp I) ℝ}
    (h0 : Normal P (fun ω => flat (q 0 ω)) m0 S0)
    {Ω' : Type} {mΩ' : MeasurableSpace Ω'} {P' : Measure Ω'} {Y : Ω' → Comp I → ℝ}
    (hY : Normal P' Y (flat m) (sgldCov lr s2 L)) (f : BoundedContinuousFunction (Comp I → ℝ) ℝ) :
    Tendsto (fun n => ∫ ω, f (flat (q n ω)) ∂P) atTop (𝓝 (∫ ω, f (Y ω) ∂P')) := by
  obtain ⟨W, hW⟩ := hrun.lin
  have hf := sgld_fix (s2 := s2) hlr.le hL hs
  have hc : 0 < lr * (1 + lr * s2 / 4) := by positivity
  refine hW.limit (sgld_mean lr L m) hf h0 (pow_tendsto_zero (sgldCov_posDef hlr hs2 hL hs) hf ?_ ?_) hY f
  · intro u
    rw [sgld_noise hlr.le, qf_scalar]
    exact mul_nonneg hc.le (Finset.sum_nonneg fun k _ => mul_self_nonneg (u k))
  · intro u h1 _
    rw [sgld_noise hlr.le, qf_scalar, mul_eq_zero] at h1
    exact dotProduct_self_eq_zero.1 (h1.resolve_left hc.ne')

/-- C85.  Without errors of the gradient the excess of that covariance over the posterior covariance is
positive in every direction, and vanishes with the learning rate (also with errors). -/
theorem C85_sgld_bias (L : Matrix (Comp I) (Comp I) ℝ) :
    (∀ {lr : ℝ}, 0 < lr → ((1 : Matrix (Comp I) (Comp I) ℝ) - (lr / 4) • L).PosDef →
      (sgldCov lr 0 L - L⁻¹).PosDef) ∧
    ∀ s2, Tendsto (fun lr => sgldCov lr s2 L) (𝓝 0) (𝓝 L⁻¹) := by
  constructor
  · intro lr hlr hs
    have e : sgldCov lr 0 L - L⁻¹ = (lr / 4) • (1 - (lr / 4) • L)⁻¹ := by
      simp [sgldCov]
    rw [e]
    exact PosDef.smul hs.inv (by positivity)
  · intro s2
    have hi : Tendsto (fun lr : ℝ => (1 - (lr / 4) • L)⁻¹) (𝓝 0) (𝓝 1) := by
      have h1 : ContinuousAt (fun lr : ℝ => Ring.inverse (1 - (lr / 4) • L).det • (1 - (lr / 4) • L).adjugate)
          0 := by
        have hd : ContinuousAt (fun lr : ℝ => (1 - (lr / 4) • L).det) 0 := by fun_prop
        have ha : ContinuousAt (fun lr : ℝ => (1 - (lr / 4) • L).adjugate) 0 := by fun_prop
        simp only [Ring.inverse_eq_inv']
        exact (hd.inv₀ (by simp)).smul ha
      have h2 := h1.tendsto
      simpa [Matrix.inv_def] using h2
    have h3 : Tendsto (fun lr => sgldCov lr s2 L) (𝓝 0)
        (𝓝 ((1 + 0 * s2 / 4) • (L⁻¹ + (0 / 4 : ℝ) • (1 : Matrix (Comp I) (Comp I) ℝ)))) := by
      unfold sgldCov
      refine Tendsto.smul ?_ (tendsto_const_nhds.add (Tendsto.smul ?_ hi))
      · exact (by fun_prop : Continuous fun lr : ℝ => 1 + lr * s2 / 4).tendsto 0
      · exact (by fun_prop : Continuous fun lr : ℝ => lr / 4).tendsto 0
    simpa using h3

/-- C85.  With a learning rate of at least 4 over an eigenvalue of the precision matrix, the variance of
SGLD's values along the eigenvector grows without bound: by at least the learning rate per call. -/
theorem C85_sgld_diverges {lr s2 : ℝ} (hlr : 0 < lr) (hs2 : 0 ≤ s2) {L : Matrix (Comp I) (Comp I) ℝ}
    (hL : Lᵀ = L) {m : Lat I} {q : ℕ → Ω → Lat I} (hrun : SgldRun P lr L m s2 q) {m0 : Comp I → ℝ}
    {S0 : Matrix (Comp I) (Comp I) ℝ} (h0 : Normal P (fun ω => flat (q 0 ω)) m0 S0)
    {u : Comp I → ℝ} {ev : ℝ} (hu : L.mulVec u = ev • u) (hev : 4 ≤ lr * ev) (n : ℕ) :
    n * lr * (u ⬝ᵥ u) ≤ Var[fun ω => u ⬝ᵥ flat (q n ω); P] := by
  obtain ⟨W, hW⟩ := hrun.lin
  have key : ∀ n : ℕ, ∃ mn Sn, Normal P (fun ω => flat (q n ω)) mn Sn ∧ n * lr * (u ⬝ᵥ u) ≤ qf Sn u := by
    intro n
    induction n with
    | zero =>
      refine ⟨m0, S0, h0, ?_⟩
      rw [← h0.var u]
      simp
    | succ n ih =>
      obtain ⟨mn, Sn, hN, hle⟩ := ih
      have := hN.affine (hW.noise n) (hW.fresh n) (1 - (lr / 2) • L) (sgldC I lr) ((lr / 2) • L.mulVec (flat m))
      have e : (fun ω => (lr / 2) • L.mulVec (flat m) + (1 - (lr / 2) • L).mulVec (flat (q n ω)) +
          (sgldC I lr).mulVec (W n ω)) = fun ω => flat (q (n + 1) ω) := by
        funext ω
        exact (hW.step n ω).symm
      rw [e] at this
      refine ⟨_, _, this, ?_⟩
      rw [qf_add, qf_conj, sgld_noise hlr.le, qf_scalar, transpose_sub, transpose_smul, transpose_one, hL,
        sub_mulVec, one_mulVec, smul_mulVec, hu, smul_smul]
      have e2 : u - (lr / 2 * ev) • u = (1 - lr / 2 * ev) • u := by
        rw [sub_smul, one_smul]
      rw [e2, qf_smul]
      have h1 : 0 ≤ u ⬝ᵥ u := Finset.sum_nonneg fun k _ => mul_self_nonneg (u k)
      have h2 : 1 ≤ (1 - lr / 2 * ev) ^ 2 := by nlinarith
      have h3 : 0 ≤ qf Sn u := le_trans (by positivity) hle
      have h4 : lr * (u ⬝ᵥ u) ≤ lr * (1 + lr * s2 / 4) * (u ⬝ᵥ u) := by
        refine mul_le_mul_of_nonneg_right ?_ h1
        have : 0 ≤ lr * s2 / 4 := by positivity
        nlinarith
      push_cast
      nlinarith
  obtain ⟨mn, Sn, hN, hle⟩ := key n
  rwa [hN.var u]

/-! ## SGHMC -/

section Algebra

variable {K : Type} [Fintype K] [DecidableEq K]

/-- Quadratic form of noise that enters positions `a` times and momenta `b` times. -/
theorem qf_rankOne (a b c : ℝ) (u : K ⊕ K → ℝ) :
    qf (c • fromBlocks ((a * a) • (1 : Matrix K K ℝ)) ((a * b) • 1) ((b * a) • 1) ((b * b) • 1)) u =
      c * ∑ k, (a * u (.inl k) + b * u (.inr k)) ^ 2 := by
  simp only [qf, smul_mulVec, fromBlocks_mulVec, one_mulVec, smul_eq_mul, dotProduct,
    Fintype.sum_sum_type, Sum.elim_inl, Sum.elim_inr, Pi.add_apply, Pi.smul_apply, Function.comp_apply]
  rw [← Finset.sum_add_distrib, Finset.mul_sum]
  exact Finset.sum_congr rfl fun k _ => by ring

theorem sghmc2_algebra {G D Q M : Matrix K K ℝ} {g e2 v : ℝ} (hD : D = e2 • 1 - (1 / 2 : ℝ) • G)
    (h1 : G * Q = g • 1) (h2 : Q * G = g • 1) (h3 : D * M = (2 * g) • 1 - M) (h4 : M * D = (2 * g) • 1 - M)
    (hv : v = 2 * g * (1 - e2)) :
    fromBlocks (1 - (1 / 2 : ℝ) • G) ((1 / 2 : ℝ) • (1 + D)) (-G) D * fromBlocks Q 0 0 M *
        fromBlocks (1 - (1 / 2 : ℝ) • G) (-G) ((1 / 2 : ℝ) • (1 + D)) D +
      v • fromBlocks ((1 / 2 * (1 / 2) : ℝ) • 1) ((1 / 2 * 1 : ℝ) • 1) ((1 * (1 / 2) : ℝ) • 1) ((1 * 1 : ℝ) • 1) =
      fromBlocks Q 0 0 M := by
  have h5 : D * M * D = (2 * g) • D - (2 * g) • 1 + M := by
    rw [h3, sub_mul, h4, smul_mul_assoc, one_mul]
    abel
  have h6 : G * Q * G = g • G := by rw [h1, smul_mul_assoc, one_mul]
  rw [fromBlocks_multiply, fromBlocks_multiply, fromBlocks_smul, fromBlocks_add]
  simp only [mul_zero, zero_mul, add_zero, zero_add, sub_mul, mul_sub, one_mul, mul_one, smul_mul_assoc,
    mul_smul_comm, neg_mul, mul_neg, add_mul, mul_add, h1, h2, h3, h4, h5, h6]
  rw [fromBlocks_inj]
  subst hD hv
  refine ⟨?_, ?_, ?_, ?_⟩
  · module
  · module
  · module
  · module

theorem sghmc1_algebra {G Q M : Matrix K K ℝ} {d v : ℝ} (h1 : G * Q = ((1 + d) / 2) • M)
    (h2 : Q * G = ((1 + d) / 2) • M) (h3 : G * M = M * G)
    (hv : (1 - d ^ 2) • M - ((1 - d) / 2) • (M * G) = v • 1) :
    fromBlocks (1 - G) (d • (1 : Matrix K K ℝ)) (-G) (d • 1) *
        fromBlocks Q ((1 / 2 : ℝ) • M) ((1 / 2 : ℝ) • M) M * fromBlocks (1 - G) (-G) (d • 1) (d • 1) +
      v • fromBlocks ((1 * 1 : ℝ) • 1) ((1 * 1 : ℝ) • 1) ((1 * 1 : ℝ) • 1) ((1 * 1 : ℝ) • 1) =
      fromBlocks Q ((1 / 2 : ℝ) • M) ((1 / 2 : ℝ) • M) M := by
  have h6 : G * Q * G = ((1 + d) / 2) • (M * G) := by rw [h1, smul_mul_assoc]
  rw [fromBlocks_multiply, fromBlocks_multiply, fromBlocks_smul, fromBlocks_add]
  simp only [sub_mul, mul_sub, one_mul, mul_one, smul_mul_assoc, smul_sub, smul_add,
    mul_smul_comm, neg_mul, mul_neg, add_mul, mul_add, h1, h2, h3, h6, smul_smul, ← hv]
  rw [fromBlocks_inj]
  refine ⟨?_, ?_, ?_, ?_⟩
  · module
  · module
  · module
  · module

end Algebra

/-- The linear part of a second order step. -/
noncomputable def hmc2A (lr e : ℝ) (L : Matrix (Comp I) (Comp I) ℝ) :
    Matrix (Comp I ⊕ Comp I) (Comp I ⊕ Comp I) ℝ :=
  let G := (e * lr) • L
  let D := (e * e) • 1 - (1 / 2 : ℝ) • G
  fromBlocks (1 - (1 / 2 : ℝ) • G) ((1 / 2 : ℝ) • (1 + D)) (-G) D

/-- How errors (`x` times) and draws (`y` times) enter positions (`a` times) and momenta. -/
noncomputable def hmcC (I : V → Type) [DecidableEq (Comp I)] (a x y : ℝ) :
    Matrix (Comp I ⊕ Comp I) (Comp I ⊕ Comp I) ℝ :=
  fromBlocks ((a * x) • 1) ((a * y) • 1) (x • 1) (y • 1)

theorem hmc_noise (a x y s2 : ℝ) :
    hmcC I a x y * noiseT I s2 * (hmcC I a x y)ᵀ =
      (x ^ 2 * s2 + y ^ 2) • fromBlocks ((a * a) • 1) ((a * 1) • 1) ((1 * a) • 1) ((1 * 1 : ℝ) • 1) := by
  unfold hmcC noiseT
  rw [fromBlocks_transpose, fromBlocks_multiply, fromBlocks_multiply, fromBlocks_smul]
  simp only [mul_zero, add_zero, zero_add, transpose_smul, transpose_one, smul_mul_assoc, mul_smul_comm, mul_one,
    one_mul, smul_smul, ← add_smul]
  rw [fromBlocks_inj]
  refine ⟨?_, ?_, ?_, ?_⟩ <;> (congr 1; ring)

theorem both_ext {x y : Comp I ⊕ Comp I → ℝ} (h1 : ∀ k, x (.inl k) = y (.inl k))
    (h2 : ∀ k, x (.inr k) = y (.inr k)) : x = y := by
  funext k
  rcases k with k | k
  · exact h1 k
  · exact h2 k

theorem sghmc2_lin (lr alpha beta : ℝ) (L : Matrix (Comp I) (Comp I) ℝ) (m e z r : Lat I)
    (s : (v : V) → HState (I v)) (d : ℝ) (hd : d = Real.exp (-0.5 * alpha)) :
    both (fun v => sghmc2 lr alpha beta (noisyGrad L m e) (fun _ => false) r z v s) =
      Sum.elim ((1 / 2 * (d * lr)) • L.mulVec (flat m)) ((d * lr) • L.mulVec (flat m)) +
        (hmc2A lr d L).mulVec (both s) +
        (hmcC I (1 / 2) (d * lr) (d * Real.sqrt (2 * (alpha - beta) * lr))).mulVec
          (Sum.elim (flat e) (flat z)) := by
  have hq : ∀ k : Comp I, ∑ l, L k l * (((s l.1).q l.2 + 0.5 * (s l.1).v l.2) - m l.1 l.2) =
      L.mulVec (flat fun v => (s v).q) k + 1 / 2 * L.mulVec (flat fun v => (s v).v) k -
        L.mulVec (flat m) k := fun k => by
    simp only [mulVec, dotProduct, flat, Finset.mul_sum]
    rw [← Finset.sum_add_distrib, ← Finset.sum_sub_distrib]
    exact Finset.sum_congr rfl fun l _ => by ring
  refine both_ext (fun k => ?_) fun k => ?_
  · simp only [both, hmc2A, hmcC, fromBlocks_mulVec, Sum.elim_inl, Pi.add_apply, Sum.elim_comp_inl,
      Sum.elim_comp_inr, sub_mulVec, smul_mulVec, one_mulVec, add_mulVec, Pi.sub_apply, Pi.smul_apply,
      smul_eq_mul]
    simp only [flat, sghmc2, oldV, noisyGrad, ← hd, Bool.false_eq_true, if_false]
    rw [hq k]
    ring
  · simp only [both, hmc2A, hmcC, fromBlocks_mulVec, Sum.elim_inr, Pi.add_apply, Sum.elim_comp_inl,
      Sum.elim_comp_inr, sub_mulVec, smul_mulVec, one_mulVec, neg_mulVec, Pi.sub_apply, Pi.smul_apply,
      Pi.neg_apply, smul_eq_mul]
    simp only [flat, sghmc2, oldV, noisyGrad, ← hd, Bool.false_eq_true, if_false]
    rw [hq k]
    ring

/-- The linear part of a first order step. -/
noncomputable def hmc1A (lr alpha : ℝ) (L : Matrix (Comp I) (Comp I) ℝ) :
    Matrix (Comp I ⊕ Comp I) (Comp I ⊕ Comp I) ℝ :=
  fromBlocks (1 - lr • L) ((1 - alpha) • 1) (-(lr • L)) ((1 - alpha) • 1)

theorem sghmc1_lin (lr alpha beta : ℝ) (L : Matrix (Comp I) (Comp I) ℝ) (m e z r : Lat I)
    (s : (v : V) → HState (I v)) :
    both (fun v => sghmc1 lr alpha beta (noisyGrad L m e) (fun _ => false) r z v s) =
      Sum.elim (lr • L.mulVec (flat m)) (lr • L.mulVec (flat m)) +
        (hmc1A lr alpha L).mulVec (both s) +
        (hmcC I 1 lr (Real.sqrt (2 * (alpha - beta) * lr))).mulVec (Sum.elim (flat e) (flat z)) := by
  have hq : ∀ k : Comp I, ∑ l, L k l * ((s l.1).q l.2 - m l.1 l.2) =
      L.mulVec (flat fun v => (s v).q) k - L.mulVec (flat m) k := fun k => by
    simp only [mulVec, dotProduct, flat]
    rw [← Finset.sum_sub_distrib]
    exact Finset.sum_congr rfl fun l _ => by ring
  refine both_ext (fun k => ?_) fun k => ?_
  · simp only [both, hmc1A, hmcC, fromBlocks_mulVec, Sum.elim_inl, Pi.add_apply, Sum.elim_comp_inl,
      Sum.elim_comp_inr, sub_mulVec, smul_mulVec, one_mulVec, Pi.sub_apply, Pi.smul_apply,
      smul_eq_mul]
    simp only [flat, sghmc1, oldV, noisyGrad, Bool.false_eq_true, if_false]
    rw [hq k]
    ring
  · simp only [both, hmc1A, hmcC, fromBlocks_mulVec, Sum.elim_inr, Pi.add_apply, Sum.elim_comp_inl,
      Sum.elim_comp_inr, smul_mulVec, one_mulVec, neg_mulVec, Pi.smul_apply,
      Pi.neg_apply, smul_eq_mul]
    simp only [flat, sghmc1, oldV, noisyGrad, Bool.false_eq_true, if_false]
    rw [hq k]
    ring

theorem block_posDef {K : Type} [Fintype K] {Q M : Matrix K K ℝ} (hQ : Q.PosDef) (hM : M.PosDef) (a : ℝ) :
    (fromBlocks (Q + (a * a) • M) (a • M) (a • M) M).PosDef := by
  have h1 : Qᵀ = Q := by simpa using hQ.isHermitian.eq
  have h2 : Mᵀ = M := by simpa using hM.isHermitian.eq
  refine PosDef.of_dotProduct_mulVec_pos ?_ fun u hu => ?_
  · simp [IsHermitian, fromBlocks_transpose, h1, h2]
  · have key : u ⬝ᵥ (fromBlocks (Q + (a * a) • M) (a • M) (a • M) M).mulVec u =
        qf Q (u ∘ Sum.inl) + qf M (a • (u ∘ Sum.inl) + u ∘ Sum.inr) := by
      have e1 : u = Sum.elim (u ∘ Sum.inl) (u ∘ Sum.inr) := by simp
      generalize u ∘ Sum.inl = x at *
      generalize u ∘ Sum.inr = y at *
      subst e1
      rw [fromBlocks_mulVec]
      simp only [sumElim_dotProduct_sumElim, Sum.elim_comp_inl, Sum.elim_comp_inr, qf, add_mulVec, smul_mulVec,
        mulVec_add, mulVec_smul, dotProduct_add, add_dotProduct, smul_dotProduct, dotProduct_smul, smul_eq_mul]
      ring
    have h0 : 0 < qf Q (u ∘ Sum.inl) + qf M (a • (u ∘ Sum.inl) + u ∘ Sum.inr) := by
      rcases eq_or_ne (u ∘ Sum.inl) 0 with hx | hx
      · rw [hx, qf_zero, smul_zero, zero_add, zero_add]
        refine qf_pos hM fun hy => hu ?_
        funext k
        rcases k with k | k
        · exact congrFun hx k
        · exact congrFun hy k
      · exact add_pos_of_pos_of_nonneg (qf_pos hQ hx) (qf_nonneg hM _)
    simpa [key] using h0

section Two

variable {lr alpha beta s2 : ℝ} {L : Matrix (Comp I) (Comp I) ℝ}

theorem exp_facts {alpha e : ℝ} (he : e = Real.exp (-0.5 * alpha)) (ha : 0 < alpha) :
    0 < e ∧ e < 1 ∧ 2 * Real.cosh (alpha / 2) * e = 1 + e * e ∧ 2 * Real.sinh (alpha / 2) * e = 1 - e * e ∧
      0 < Real.sinh (alpha / 2) := by
  have h0 : 0 < e := by rw [he]; exact Real.exp_pos _
  have h1 : Real.exp (alpha / 2) * e = 1 := by
    rw [he, ← Real.exp_add, ← Real.exp_zero]
    congr 1
    ring
  have h2 : Real.exp (-(alpha / 2)) = e := by
    rw [he]
    congr 1
    ring
  refine ⟨h0, ?_, ?_, ?_, Real.sinh_pos_iff.2 (by positivity)⟩
  · rw [he, Real.exp_lt_one_iff]
    norm_num
    exact ha
  · rw [Real.cosh_eq, h2]
    linear_combination h1
  · rw [Real.sinh_eq, h2]
    linear_combination h1

theorem Stable.two_step (h : Stable true lr alpha beta s2 L) :
    ((2 * Real.cosh (alpha / 2)) • (1 : Matrix (Comp I) (Comp I) ℝ) - (lr / 2) • L).PosDef := by
  simpa [stepBound] using h.bounded

theorem Stable.two_nu (h : Stable true lr alpha beta s2 L) {e : ℝ} (he : e = Real.exp (-0.5 * alpha)) :
    (e * lr) ^ 2 * s2 + (e * Real.sqrt (2 * (alpha - beta) * lr)) ^ 2 =
      2 * (e * lr * (frictionFactor alpha * noiseFactor lr alpha beta s2)) * (1 - e * e) ∧
    0 < (e * lr) ^ 2 * s2 + (e * Real.sqrt (2 * (alpha - beta) * lr)) ^ 2 := by
  obtain ⟨e0, e1, ec, es, hs⟩ := exp_facts he h.friction_pos
  have hlr := h.rate_pos
  have ha := h.friction_pos
  have hn := h.factor_pos
  have heq : (e * lr) ^ 2 * s2 + (e * Real.sqrt (2 * (alpha - beta) * lr)) ^ 2 =
      2 * (e * lr * (frictionFactor alpha * noiseFactor lr alpha beta s2)) * (1 - e * e) := by
    have hsq : Real.sqrt (2 * (alpha - beta) * lr) ^ 2 = 2 * (alpha - beta) * lr :=
      Real.sq_sqrt (mul_nonneg (mul_nonneg (by norm_num) (sub_nonneg.2 h.estimate_le)) h.rate_pos.le)
    rw [mul_pow e (Real.sqrt _), hsq, ← es, frictionFactor, noiseFactor]
    field_simp
    ring
  refine ⟨heq, ?_⟩
  rw [heq]
  have h1 : 0 < 1 - e * e := by nlinarith
  have h2 : 0 < frictionFactor alpha := div_pos (by positivity) hs
  positivity

theorem Stable.two_fix (h : Stable true lr alpha beta s2 L) {e : ℝ} (he : e = Real.exp (-0.5 * alpha)) :
    hmc2A lr e L * sghmcCov2 lr alpha beta s2 L * (hmc2A lr e L)ᵀ +
      hmcC I (1 / 2) (e * lr) (e * Real.sqrt (2 * (alpha - beta) * lr)) * noiseT I s2 *
        (hmcC I (1 / 2) (e * lr) (e * Real.sqrt (2 * (alpha - beta) * lr)))ᵀ =
      sghmcCov2 lr alpha beta s2 L := by
  obtain ⟨e0, e1, ec, es, hs⟩ := exp_facts he h.friction_pos
  have hsym : Lᵀ = L := by simpa using h.posterior.isHermitian.eq
  obtain ⟨l1, l2⟩ := mul_one_sub_inv h.posterior
  obtain ⟨r1, r2⟩ := resolvent h.two_step
  rw [hmc_noise, (h.two_nu he).1]
  unfold hmc2A sghmcCov2
  dsimp only
  generalize ((2 * Real.cosh (alpha / 2)) • (1 : Matrix (Comp I) (Comp I) ℝ) - (lr / 2) • L)⁻¹ = R at *
  generalize frictionFactor alpha * noiseFactor lr alpha beta s2 = k
  rw [fromBlocks_transpose]
  simp only [transpose_sub, transpose_smul, transpose_one, transpose_neg, transpose_add, hsym]
  have key : ∀ X : Matrix (Comp I) (Comp I) ℝ, (lr / 2) • X = (2 * Real.cosh (alpha / 2)) • R - 1 →
      (e * e) • R - (1 / 2 * (e * lr)) • X = e • 1 - R := fun X hX => by
    have : (1 / 2 * (e * lr)) • X = e • ((lr / 2) • X) := by
      rw [smul_smul]
      congr 1
      ring
    rw [this, hX, smul_sub, smul_smul]
    have h3 : e * (2 * Real.cosh (alpha / 2)) = 1 + e * e := by linear_combination ec
    rw [h3]
    module
  refine sghmc2_algebra (g := e * lr * k) rfl ?_ ?_ ?_ ?_ rfl
  · rw [smul_mul_smul_comm, l1]
  · rw [smul_mul_smul_comm, l2]
    congr 1
    ring
  · simp only [sub_mul, smul_mul_assoc, one_mul, mul_smul_comm]
    linear_combination (norm := module) (2 * lr * k) • key _ r1
  · simp only [mul_sub, mul_smul_comm, mul_one, smul_mul_assoc]
    linear_combination (norm := module) (2 * lr * k) • key _ r2

theorem hmc2_mean (lr e : ℝ) (L : Matrix (Comp I) (Comp I) ℝ) (m : Comp I → ℝ) :
    Sum.elim ((1 / 2 * (e * lr)) • L.mulVec m) ((e * lr) • L.mulVec m) +
      (hmc2A lr e L).mulVec (Sum.elim m 0) = Sum.elim m 0 := by
  refine both_ext (fun k => ?_) fun k => ?_
  · simp [hmc2A, fromBlocks_mulVec, sub_mulVec, smul_mulVec]
    ring
  · simp [hmc2A, fromBlocks_mulVec, neg_mulVec, smul_mulVec]

theorem Stable.two_posDef (h : Stable true lr alpha beta s2 L) : (sghmcCov2 lr alpha beta s2 L).PosDef := by
  obtain ⟨e0, e1, ec, es, hs⟩ := exp_facts rfl h.friction_pos
  have hlr := h.rate_pos
  have ha := h.friction_pos
  have hn := h.factor_pos
  have h2 : 0 < frictionFactor alpha := div_pos (by positivity) hs
  have := block_posDef (PosDef.smul h.posterior.inv (mul_pos h2 hn))
    (PosDef.smul h.two_step.inv (by positivity : 0 < 2 * lr * (frictionFactor alpha * noiseFactor lr alpha beta s2))) 0
  simpa [sghmcCov2] using this

theorem Stable.two_forget (h : Stable true lr alpha beta s2 L) {e : ℝ} (he : e = Real.exp (-0.5 * alpha)) :
    Tendsto (fun n => hmc2A lr e L ^ n) atTop (𝓝 0) := by
  have hsym : Lᵀ = L := by simpa using h.posterior.isHermitian.eq
  have hnu := (h.two_nu he).2
  refine pow_tendsto_zero h.two_posDef (h.two_fix he) (fun u => ?_) fun u h1 h2 => ?_
  · rw [hmc_noise, qf_rankOne]
    exact mul_nonneg hnu.le (Finset.sum_nonneg fun _ _ => sq_nonneg _)
  · rw [hmc_noise, qf_rankOne, mul_eq_zero, or_iff_right hnu.ne',
      Finset.sum_eq_zero_iff_of_nonneg fun _ _ => sq_nonneg _] at h1 h2
    have e1 : u ∘ Sum.inr = -(1 / 2 : ℝ) • (u ∘ Sum.inl) := by
      funext k
      have := h1 k (Finset.mem_univ _)
      rw [sq_eq_zero_iff] at this
      simp only [Function.comp_apply, Pi.smul_apply, smul_eq_mul]
      linarith
    have e2 : (hmc2A lr e L)ᵀ.mulVec u = Sum.elim (u ∘ Sum.inl) ((1 / 2 : ℝ) • (u ∘ Sum.inl)) := by
      unfold hmc2A
      dsimp only
      rw [fromBlocks_transpose]
      simp only [transpose_sub, transpose_smul, transpose_one, transpose_neg, transpose_add, hsym,
        fromBlocks_mulVec, e1]
      congr 1
      · simp only [sub_mulVec, one_mulVec, smul_mulVec, neg_mulVec, mulVec_smul]
        module
      · simp only [sub_mulVec, one_mulVec, smul_mulVec, add_mulVec, mulVec_smul]
        module
    have e3 : u ∘ Sum.inl = 0 := by
      funext k
      have := h2 k (Finset.mem_univ _)
      rw [sq_eq_zero_iff, e2] at this
      simp only [Sum.elim_inl, Sum.elim_inr, Function.comp_apply, Pi.smul_apply, smul_eq_mul] at this
      simp only [Function.comp_apply, Pi.zero_apply]
      linarith
    rw [e3, smul_zero] at e1
    exact both_ext (fun k => congrFun e3 k) fun k => congrFun e1 k

end Two

section One

variable {lr alpha beta s2 : ℝ} {L : Matrix (Comp I) (Comp I) ℝ}

theorem Stable.one_step (h : Stable false lr alpha beta s2 L) :
    ((2 - alpha) • (1 : Matrix (Comp I) (Comp I) ℝ) - (lr / 2) • L).PosDef := by
  simpa [stepBound] using h.bounded

theorem Stable.one_nu (h : Stable false lr alpha beta s2 L) :
    lr ^ 2 * s2 + Real.sqrt (2 * (alpha - beta) * lr) ^ 2 =
      2 * lr * noiseFactor lr alpha beta s2 * alpha ∧
    0 < lr ^ 2 * s2 + Real.sqrt (2 * (alpha - beta) * lr) ^ 2 := by
  have hlr := h.rate_pos
  have ha := h.friction_pos
  have hn := h.factor_pos
  have heq : lr ^ 2 * s2 + Real.sqrt (2 * (alpha - beta) * lr) ^ 2 =
      2 * lr * noiseFactor lr alpha beta s2 * alpha := by
    rw [Real.sq_sqrt (mul_nonneg (mul_nonneg (by norm_num) (sub_nonneg.2 h.estimate_le)) h.rate_pos.le),
      noiseFactor]
    field_simp
    ring
  exact ⟨heq, by rw [heq]; positivity⟩

theorem Stable.one_fix (h : Stable false lr alpha beta s2 L) :
    hmc1A lr alpha L * sghmcCov1 lr alpha beta s2 L * (hmc1A lr alpha L)ᵀ +
      hmcC I 1 lr (Real.sqrt (2 * (alpha - beta) * lr)) * noiseT I s2 *
        (hmcC I 1 lr (Real.sqrt (2 * (alpha - beta) * lr)))ᵀ = sghmcCov1 lr alpha beta s2 L := by
  have hsym : Lᵀ = L := by simpa using h.posterior.isHermitian.eq
  obtain ⟨l1, l2⟩ := mul_one_sub_inv h.posterior
  obtain ⟨r1, r2⟩ := resolvent h.one_step
  rw [hmc_noise, h.one_nu.1]
  unfold hmc1A sghmcCov1 momCov1
  dsimp only
  generalize ((2 - alpha) • (1 : Matrix (Comp I) (Comp I) ℝ) - (lr / 2) • L)⁻¹ = R at *
  generalize noiseFactor lr alpha beta s2 = k
  rw [fromBlocks_transpose]
  simp only [transpose_sub, transpose_smul, transpose_one, transpose_neg, hsym]
  have hc : L * R = R * L ∨ lr = 0 := by
    rcases eq_or_ne lr 0 with h0 | h0
    · exact Or.inr h0
    · left
      have : (lr / 2) • (L * R) = (lr / 2) • (R * L) := r1.trans r2.symm
      exact smul_right_injective _ (div_ne_zero h0 two_ne_zero) this
  have hc' := hc.resolve_right h.rate_pos.ne'
  refine sghmc1_algebra ?_ ?_ ?_ ?_
  · rw [mul_add, smul_mul_smul_comm, l1, mul_smul_comm, smul_mul_smul_comm]
    linear_combination (norm := module) (lr * k) • r1
  · rw [add_mul, smul_mul_smul_comm, l2, smul_mul_assoc, smul_mul_smul_comm]
    linear_combination (norm := module) (lr * k) • r2
  · rw [smul_mul_smul_comm, smul_mul_smul_comm, hc', mul_comm]
  · rw [smul_mul_smul_comm]
    linear_combination (norm := module) (-2 * lr * k * alpha) • r2

theorem hmc1_mean (lr alpha : ℝ) (L : Matrix (Comp I) (Comp I) ℝ) (m : Comp I → ℝ) :
    Sum.elim (lr • L.mulVec m) (lr • L.mulVec m) +
      (hmc1A lr alpha L).mulVec (Sum.elim m 0) = Sum.elim m 0 := by
  refine both_ext (fun k => ?_) fun k => ?_
  · simp [hmc1A, fromBlocks_mulVec, sub_mulVec, smul_mulVec]
  · simp [hmc1A, fromBlocks_mulVec, neg_mulVec, smul_mulVec]

theorem Stable.one_posDef (h : Stable false lr alpha beta s2 L) : (sghmcCov1 lr alpha beta s2 L).PosDef := by
  have hlr := h.rate_pos
  have hn := h.factor_pos
  have := block_posDef (PosDef.smul h.posterior.inv hn)
    (PosDef.smul h.one_step.inv (by positivity : 0 < 2 * lr * noiseFactor lr alpha beta s2)) (1 / 2)
  have e : (1 / 2 * (1 / 2) : ℝ) = 1 / 4 := by norm_num
  rw [e] at this
  exact this

theorem Stable.one_forget (h : Stable false lr alpha beta s2 L) :
    Tendsto (fun n => hmc1A lr alpha L ^ n) atTop (𝓝 0) := by
  have hsym : Lᵀ = L := by simpa using h.posterior.isHermitian.eq
  have hnu := h.one_nu.2
  refine pow_tendsto_zero h.one_posDef h.one_fix (fun u => ?_) fun u h1 h2 => ?_
  · rw [hmc_noise, qf_rankOne]
    exact mul_nonneg hnu.le (Finset.sum_nonneg fun _ _ => sq_nonneg _)
  · rw [hmc_noise, qf_rankOne, mul_eq_zero, or_iff_right hnu.ne',
      Finset.sum_eq_zero_iff_of_nonneg fun _ _ => sq_nonneg _] at h1 h2
    have e1 : u ∘ Sum.inr = -(u ∘ Sum.inl) := by
      funext k
      have := h1 k (Finset.mem_univ _)
      rw [sq_eq_zero_iff] at this
      simp only [Function.comp_apply, Pi.neg_apply]
      linarith
    have e2 : (hmc1A lr alpha L)ᵀ.mulVec u = Sum.elim (u ∘ Sum.inl) 0 := by
      unfold hmc1A
      rw [fromBlocks_transpose]
      simp only [transpose_sub, transpose_smul, transpose_one, transpose_neg, hsym,
        fromBlocks_mulVec, e1]
      congr 1
      · simp only [sub_mulVec, one_mulVec, smul_mulVec, neg_mulVec, mulVec_neg]
        module
      · simp only [one_mulVec, smul_mulVec]
        module
    have e3 : u ∘ Sum.inl = 0 := by
      funext k
      have := h2 k (Finset.mem_univ _)
      rw [sq_eq_zero_iff, e2] at this
      simp only [Sum.elim_inl, Sum.elim_inr, Function.comp_apply, Pi.zero_apply] at this
      simp only [Function.comp_apply, Pi.zero_apply]
      linarith
    rw [e3, neg_zero] at e1
    exact both_ext (fun k => congrFun e3 k) fun k => congrFun e1 k

end One

theorem SghmcRun.lin {second : Bool} {lr alpha beta s2 : ℝ} {L : Matrix (Comp I) (Comp I) ℝ} {m : Lat I}
    {s : ℕ → Ω → (v : V) → HState (I v)} (h : SghmcRun second P lr alpha beta L m s2 s)
    (hst : Stable second lr alpha beta s2 L) : ∃ A C b W,
      LinRun P A C (noiseT I s2) b (fun n ω => both (s n ω)) W ∧
      b + A.mulVec (Sum.elim (flat m) 0) = Sum.elim (flat m) 0 ∧
      A * sghmcCov second lr alpha beta s2 L * Aᵀ + C * noiseT I s2 * Cᵀ = sghmcCov second lr alpha beta s2 L ∧
      Tendsto (fun n => A ^ n) atTop (𝓝 0) := by
  obtain ⟨e, z, r, hn, hf, hs⟩ := h.calls
  cases second with
  | true =>
    refine ⟨_, _, _, fun n ω => Sum.elim (flat (e n ω)) (flat (z n ω)), ⟨fun n ω => ?_, hn, hf⟩,
      hmc2_mean lr _ L (flat m), hst.two_fix rfl, hst.two_forget rfl⟩
    rw [hs]
    simp only [if_true]
    rw [sghmc2_lin lr alpha beta L m (e n ω) (z n ω) (r n ω) (s n ω) _ rfl]
  | false =>
    refine ⟨_, _, _, fun n ω => Sum.elim (flat (e n ω)) (flat (z n ω)), ⟨fun n ω => ?_, hn, hf⟩,
      hmc1_mean lr alpha L (flat m), hst.one_fix, hst.one_forget⟩
    rw [hs]
    simp only [Bool.false_eq_true, if_false]
    rw [sghmc1_lin lr alpha beta L m (e n ω) (z n ω) (r n ω) (s n ω)]

/-- C85.  SGHMC of either order keeps the normal distribution in which the positions have the mean of the
posterior, the momenta have mean zero, and the covariances are those of `sghmcCov`. -/
theorem C85_sghmc_stationary {second : Bool} {lr alpha beta s2 : ℝ} {L : Matrix (Comp I) (Comp I) ℝ}
    (hst : Stable second lr alpha beta s2 L) {m : Lat I} {s : ℕ → Ω → (v : V) → HState (I v)}
    (hrun : SghmcRun second P lr alpha beta L m s2 s)
    (h0 : Normal P (fun ω => both (s 0 ω)) (Sum.elim (flat m) 0) (sghmcCov second lr alpha beta s2 L)) (n : ℕ) :
    Normal P (fun ω => both (s n ω)) (Sum.elim (flat m) 0) (sghmcCov second lr alpha beta s2 L) ∧
      P.map (fun ω => both (s n ω)) = P.map fun ω => both (s 0 ω) := by
  obtain ⟨A, C, b, W, hW, hm, hf, -⟩ := hrun.lin hst
  have := hW.fixed hm hf h0 n
  exact ⟨this, this.unique h0⟩

/-- C85.  From any normal start, fixed starts included, the law of SGHMC's positions and momenta converges to
that distribution. -/
theorem C85_sghmc_limit {second : Bool} {lr alpha beta s2 : ℝ} {L : Matrix (Comp I) (Comp I) ℝ}
    (hst : Stable second lr alpha beta s2 L) {m : Lat I} {s : ℕ → Ω → (v : V) → HState (I v)}
    (hrun : SghmcRun second P lr alpha beta L m s2 s) {m0 : Comp I ⊕ Comp I → ℝ}
    {S0 : Matrix (Comp I ⊕ Comp I) (Comp I ⊕ Comp I) ℝ} (h0 : Normal P (fun ω => both (s 0 ω)) m0 S0)
    {Ω' : Type} {mΩ' : MeasurableSpace Ω'} {P' : Measure Ω'} {Y : Ω' → Comp I ⊕ Comp I → ℝ}
    (hY : Normal P' Y (Sum.elim (flat m) 0) (sghmcCov second lr alpha beta s2 L))
    (f : BoundedContinuousFunction (Comp I ⊕ Comp I → ℝ) ℝ) :
    Tendsto (fun n => ∫ ω, f (both (s n ω)) ∂P) atTop (𝓝 (∫ ω, f (Y ω) ∂P')) := by
  obtain ⟨A, C, b, W, hW, hm, hf, hA⟩ := hrun.lin hst
  exact hW.limit hm hf h0 hA hY f

/-- C85.  In the stationary distribution of the second order SGHMC the positions have the posterior covariance
times two factors, neither of which depends on the learning rate when the gradient is exact. -/
theorem C85_sghmc2_positions {lr alpha beta s2 : ℝ} {L : Matrix (Comp I) (Comp I) ℝ} {m : Lat I}
    {s : Ω → (v : V) → HState (I v)}
    (h : Normal P (fun ω => both (s ω)) (Sum.elim (flat m) 0) (sghmcCov true lr alpha beta s2 L)) :
    Normal P (fun ω => flat fun v => (s ω v).q) (flat m)
      ((frictionFactor alpha * noiseFactor lr alpha beta s2) • L⁻¹) := by
  have := h.image (fromCols 1 0 : Matrix (Comp I) (Comp I ⊕ Comp I) ℝ) 0
  have e : ∀ x y : Comp I → ℝ, (0 : Comp I → ℝ) + (fromCols 1 0 : Matrix (Comp I) (Comp I ⊕ Comp I) ℝ).mulVec
      (Sum.elim x y) = x := fun x y => by
    rw [fromCols_mulVec_sumElim]
    simp
  simp only [both, e] at this
  convert this using 1
  simp only [sghmcCov, if_true, sghmcCov2]
  rw [transpose_fromCols, fromCols_mul_fromBlocks, fromCols_mul_fromRows]
  simp

/-- C85.  In the stationary distribution of the first order SGHMC the position half a momentum back has the
posterior covariance times one factor, whatever the learning rate and the friction. -/
theorem C85_sghmc1_middle {lr alpha beta s2 : ℝ} {L : Matrix (Comp I) (Comp I) ℝ} {m : Lat I}
    {s : Ω → (v : V) → HState (I v)}
    (h : Normal P (fun ω => both (s ω)) (Sum.elim (flat m) 0) (sghmcCov false lr alpha beta s2 L)) :
    Normal P (fun ω => flat fun v i => (s ω v).q i - (s ω v).v i / 2) (flat m)
      (noiseFactor lr alpha beta s2 • L⁻¹) := by
  have := h.image (fromCols 1 (-(1 / 2 : ℝ) • 1) : Matrix (Comp I) (Comp I ⊕ Comp I) ℝ) 0
  have e : ∀ x y : Comp I → ℝ, (0 : Comp I → ℝ) + (fromCols 1 (-(1 / 2 : ℝ) • 1) :
      Matrix (Comp I) (Comp I ⊕ Comp I) ℝ).mulVec (Sum.elim x y) = x - (1 / 2 : ℝ) • y := fun x y => by
    rw [fromCols_mulVec_sumElim, smul_mulVec, one_mulVec, one_mulVec]
    module
  simp only [both, e] at this
  convert this using 1
  · funext ω k
    simp only [flat, Pi.sub_apply, Pi.smul_apply, smul_eq_mul]
    ring
  · simp
  · simp only [sghmcCov, Bool.false_eq_true, if_false, sghmcCov1]
    rw [transpose_fromCols, fromCols_mul_fromBlocks, fromCols_mul_fromRows]
    simp only [one_mul, transpose_smul, transpose_one, mul_one, smul_mul_assoc, mul_smul_comm]
    module

/-- C85.  `variance_estimate` does what it is for: its factor is 1 exactly if it is half the learning rate times
the variance of the gradient errors. -/
theorem C85_variance_estimate {lr alpha beta s2 : ℝ} (ha : alpha ≠ 0) :
    noiseFactor lr alpha beta s2 = 1 ↔ beta = lr * s2 / 2 := by
  unfold noiseFactor
  constructor
  · intro h
    field_simp at h
    linarith
  · rintro rfl
    field_simp
    ring

/-- C85.  The friction factor of the second order SGHMC is below 1 for every friction: the positions have too
small a variance in every direction, at every learning rate.  It tends to 1 as the friction tends to 0. -/
theorem C85_friction_factor : (∀ alpha, 0 < alpha → 0 < frictionFactor alpha ∧ frictionFactor alpha < 1) ∧
    Tendsto frictionFactor (𝓝[≠] 0) (𝓝 1) := by
  constructor
  · intro alpha ha
    have h1 : 0 < alpha / 2 := by positivity
    have h2 := Real.self_lt_sinh_iff.2 h1
    exact ⟨div_pos h1 (h1.trans h2), (div_lt_one (h1.trans h2)).2 h2⟩
  · have h1 := (hasDerivAt_iff_tendsto_slope.1 (Real.hasDerivAt_sinh 0))
    rw [Real.cosh_zero] at h1
    have h2 := h1.inv₀ one_ne_zero
    have h3 : Tendsto (fun a : ℝ => a / 2) (𝓝[≠] 0) (𝓝[≠] 0) := by
      refine tendsto_nhdsWithin_of_tendsto_nhds_of_eventually_within _ ?_ ?_
      · have : Tendsto (fun a : ℝ => a / 2) (𝓝 0) (𝓝 (0 / 2)) :=
          (by fun_prop : Continuous fun a : ℝ => a / 2).tendsto 0
        rw [zero_div] at this
        exact this.mono_left nhdsWithin_le_nhds
      · filter_upwards [self_mem_nhdsWithin] with a ha
        simpa using ha
    have h4 := h2.comp h3
    rw [inv_one] at h4
    refine h4.congr fun a => ?_
    simp [frictionFactor, slope, div_eq_mul_inv, mul_comm]

/-- C85.  "Larger `friction` makes the stationary distribution closer to the true posterior since it reduces the
effect of stochasticity in the gradient" (sgmcmc.py 288–290): this is so for the noise factor, which with
`variance_estimate=0` is above 1 and gets smaller.  It is not so for the friction factor, which gets smaller too
but is below 1 already. -/
theorem C85_more_friction :
    (∀ lr s2 a a' : ℝ, 0 < lr → 0 < s2 → 0 < a → a < a' →
      1 < noiseFactor lr a' 0 s2 ∧ noiseFactor lr a' 0 s2 < noiseFactor lr a 0 s2) ∧
    ∀ a, 0 < a → frictionFactor (2 * a) < frictionFactor a ∧ frictionFactor a < 1 := by
  constructor
  · intro lr s2 a a' h1 h2 h3 h4
    have h5 : 0 < a' := h3.trans h4
    unfold noiseFactor
    simp only [zero_div, sub_zero]
    refine ⟨lt_add_of_pos_right _ (by positivity), add_lt_add_right ?_ _⟩
    exact div_lt_div_of_pos_left (by positivity) (by positivity) (by linarith)
  · intro a ha
    refine ⟨?_, (C85_friction_factor.1 a ha).2⟩
    have h1 : 0 < a / 2 := by positivity
    have h2 : 0 < Real.sinh (a / 2) := Real.sinh_pos_iff.2 h1
    have h3 : 1 < Real.cosh (a / 2) := Real.one_lt_cosh.2 h1.ne'
    have e : frictionFactor (2 * a) = (a / 2) / (Real.sinh (a / 2) * Real.cosh (a / 2)) := by
      have e2 : 2 * a / 2 = 2 * (a / 2) := by ring
      rw [frictionFactor, e2, Real.sinh_two_mul]
      field_simp
    rw [e, frictionFactor]
    exact div_lt_div_of_pos_left h1 h2 (lt_mul_of_one_lt_right h2 h3)

/-- C85.  `noisyGrad` with error 0 is the gradient of the log density. -/
theorem C85_gradient {L : Matrix (Comp I) (Comp I) ℝ} (hL : Lᵀ = L) (m q d : Lat I) :
    HasDerivAt (fun t : ℝ => logPost L m (q + t • d))
      (∑ k, noisyGrad L m 0 q k.1 k.2 * flat d k) 0 := by
  have hk : ∀ k : Comp I, HasDerivAt (fun t : ℝ => flat (q + t • d) k - flat m k) (flat d k) 0 := fun k => by
    have : HasDerivAt (fun t : ℝ => q k.1 k.2 + t * d k.1 k.2 - m k.1 k.2) (1 * d k.1 k.2) 0 :=
      (((hasDerivAt_id (0 : ℝ)).mul_const (d k.1 k.2)).const_add (q k.1 k.2)).sub_const _
    simpa [flat] using this
  have h1 : HasDerivAt (fun t : ℝ => logPost L m (q + t • d))
      (-(1 / 2) * ∑ k, ∑ l, (flat d k * L k l * (flat (q + (0 : ℝ) • d) l - flat m l) +
        (flat (q + (0 : ℝ) • d) k - flat m k) * L k l * flat d l)) 0 := by
    unfold logPost
    refine HasDerivAt.const_mul _ (HasDerivAt.fun_sum fun k _ => HasDerivAt.fun_sum fun l _ => ?_)
    exact ((hk k).mul_const (L k l)).mul (hk l)
  convert h1 using 1
  simp only [zero_smul, add_zero, Finset.sum_add_distrib]
  rw [Finset.sum_comm (f := fun k l => (flat q k - flat m k) * L k l * flat d l)]
  have e : ∀ k, ∑ l, (flat q l - flat m l) * L l k * flat d k =
      ∑ l, flat d k * L k l * (flat q l - flat m l) := fun k =>
    Finset.sum_congr rfl fun l _ => by
      have : L l k = L k l := congrFun (congrFun hL k) l
      rw [this]
      ring
  simp only [e, noisyGrad, Pi.zero_apply, add_zero, ← two_mul]
  rw [← mul_assoc, Finset.mul_sum]
  refine Finset.sum_congr rfl fun k _ => ?_
  rw [neg_mul, Finset.sum_mul, Finset.mul_sum, ← Finset.sum_neg_distrib]
  exact Finset.sum_congr rfl fun l _ => by ring

/-! ### The hypotheses are met -/

/-- A vector as values of the latent variables. -/
def unflat (x : Comp I → ℝ) : Lat I := fun v i => x ⟨v, i⟩

theorem flat_unflat (x : Comp I → ℝ) : flat (unflat x) = x := rfl

theorem noiseT_pos {s2 : ℝ} (hs2 : 0 ≤ s2) : (noiseT I s2).PosSemidef := by
  have : noiseT I s2 = diagonal (Sum.elim (fun _ => s2) fun _ => 1) := by
    rw [← fromBlocks_diagonal, noiseT]
    congr 1
    exact smul_one_eq_diagonal s2
  rw [this]
  refine PosSemidef.diagonal fun k => ?_
  rcases k with k | k
  · exact hs2
  · exact zero_le_one

/-- C85.  From every normal start there is a run of SGLD. -/
theorem C85_sgld_runs (lr : ℝ) {s2 : ℝ} (hs2 : 0 ≤ s2) (L : Matrix (Comp I) (Comp I) ℝ) (m : Lat I)
    (m0 : Comp I → ℝ) {S0 : Matrix (Comp I) (Comp I) ℝ} (hS : S0.PosSemidef) :
    ∃ (Ω : Type) (_ : MeasurableSpace Ω) (P : Measure Ω) (q : ℕ → Ω → Lat I),
      SgldRun P lr L m s2 q ∧ Normal P (fun ω => flat (q 0 ω)) m0 S0 := by
  obtain ⟨Ω, mΩ, P, X0, W, h0, hW, hi⟩ := exists_noise m0 hS (noiseT_pos (I := I) hs2)
  let F : (Comp I → ℝ) → (Comp I ⊕ Comp I → ℝ) → Comp I → ℝ := fun x w =>
    (lr / 2) • L.mulVec (flat m) + (1 - (lr / 2) • L).mulVec x + (sgldC I lr).mulVec w
  have hF : Measurable (Function.uncurry F) := by
    have : Continuous (Function.uncurry F) := by
      simp only [F, Function.uncurry_def]
      fun_prop
    exact this.measurable
  refine ⟨Ω, mΩ, P, fun n ω => unflat (iter F X0 W n ω), ⟨fun n ω => unflat fun k => W n ω (.inl k),
    fun n ω => unflat fun k => W n ω (.inr k), fun n => ?_, fun n => ?_, fun n ω => ?_⟩, h0⟩
  · have e : (fun ω => Sum.elim (flat (unflat fun k => W n ω (.inl k))) (flat (unflat fun k => W n ω (.inr k)))) =
        W n := by
      funext ω k
      rcases k with k | k <;> rfl
    unfold Noise
    rw [e]
    exact hW n
  · have e : (fun ω => Sum.elim (flat (unflat fun k => W n ω (.inl k))) (flat (unflat fun k => W n ω (.inr k)))) =
        W n := by
      funext ω k
      rcases k with k | k <;> rfl
    unfold Fresh
    rw [e]
    exact hi F hF n
  · have := sgld_lin lr L m (unflat fun k => W n ω (.inl k)) (unflat fun k => W n ω (.inr k))
      (unflat (iter F X0 W n ω))
    have e : Sum.elim (flat (unflat fun k : Comp I => W n ω (.inl k))) (flat (unflat fun k => W n ω (.inr k))) =
        W n ω := by
      funext k
      rcases k with k | k <;> rfl
    rw [e, flat_unflat] at this
    funext v i
    exact (congrFun this ⟨v, i⟩).symm

/-- C85.  From every normal start there is a run of SGHMC. -/
theorem C85_sghmc_runs (second : Bool) (lr alpha beta : ℝ) {s2 : ℝ} (hs2 : 0 ≤ s2)
    (L : Matrix (Comp I) (Comp I) ℝ) (m : Lat I) (m0 : Comp I ⊕ Comp I → ℝ)
    {S0 : Matrix (Comp I ⊕ Comp I) (Comp I ⊕ Comp I) ℝ} (hS : S0.PosSemidef) :
    ∃ (Ω : Type) (_ : MeasurableSpace Ω) (P : Measure Ω) (s : ℕ → Ω → (v : V) → HState (I v)),
      SghmcRun second P lr alpha beta L m s2 s ∧ Normal P (fun ω => both (s 0 ω)) m0 S0 := by
  obtain ⟨Ω, mΩ, P, X0, W, h0, hW, hi⟩ := exists_noise m0 hS (noiseT_pos (I := I) hs2)
  obtain ⟨A, C, b, hlin⟩ : ∃ (A C : Matrix (Comp I ⊕ Comp I) (Comp I ⊕ Comp I) ℝ) (b : Comp I ⊕ Comp I → ℝ),
      ∀ (e z r : Lat I) (s : (v : V) → HState (I v)),
      both (fun v => if second then sghmc2 lr alpha beta (noisyGrad L m e) (fun _ => false) r z v s
        else sghmc1 lr alpha beta (noisyGrad L m e) (fun _ => false) r z v s) =
        b + A.mulVec (both s) + C.mulVec (Sum.elim (flat e) (flat z)) := by
    cases second with
    | true => exact ⟨_, _, _, fun e z r s => sghmc2_lin lr alpha beta L m e z r s _ rfl⟩
    | false => exact ⟨_, _, _, fun e z r s => sghmc1_lin lr alpha beta L m e z r s⟩
  let F : (Comp I ⊕ Comp I → ℝ) → (Comp I ⊕ Comp I → ℝ) → Comp I ⊕ Comp I → ℝ := fun x w =>
    b + A.mulVec x + C.mulVec w
  have hF : Measurable (Function.uncurry F) := by
    have : Continuous (Function.uncurry F) := by
      simp only [F, Function.uncurry_def]
      fun_prop
    exact this.measurable
  let st : (Comp I ⊕ Comp I → ℝ) → (v : V) → HState (I v) := fun x v =>
    ⟨fun i => x (.inl ⟨v, i⟩), fun i => x (.inr ⟨v, i⟩)⟩
  have hst : ∀ x, both (st x) = x := fun x => by
    funext k
    rcases k with k | k <;> rfl
  have hts : ∀ s : (v : V) → HState (I v), st (both s) = s := fun s => rfl
  have e : ∀ n ω, Sum.elim (flat (unflat fun k : Comp I => W n ω (.inl k)))
      (flat (unflat fun k => W n ω (.inr k))) = W n ω := by
    intro n ω
    funext k
    rcases k with k | k <;> rfl
  refine ⟨Ω, mΩ, P, fun n ω => st (iter F X0 W n ω), ⟨fun n ω => unflat fun k => W n ω (.inl k),
    fun n ω => unflat fun k => W n ω (.inr k), fun _ _ => 0, fun n => ?_, fun n => ?_, fun n ω => ?_⟩, ?_⟩
  · unfold Noise
    simp only [e]
    exact hW n
  · unfold Fresh
    simp only [e, hst]
    exact hi F hF n
  · have := hlin (unflat fun k => W n ω (.inl k)) (unflat fun k => W n ω (.inr k)) 0 (st (iter F X0 W n ω))
    rw [e, hst] at this
    have h2 := congrArg st this
    rw [hts] at h2
    exact h2.symm
  · simp only [hst]
    exact h0

theorem Stable.cov_posDef {second : Bool} {lr alpha beta s2 : ℝ} {L : Matrix (Comp I) (Comp I) ℝ}
    (h : Stable second lr alpha beta s2 L) : (sghmcCov second lr alpha beta s2 L).PosDef := by
  cases second with
  | true => exact h.two_posDef
  | false => exact h.one_posDef

/-- C85.  Under the stated conditions there are stationary runs of SGHMC. -/
theorem C85_sghmc_stationary_runs {second : Bool} {lr alpha beta s2 : ℝ} {L : Matrix (Comp I) (Comp I) ℝ}
    (h : Stable second lr alpha beta s2 L) (m : Lat I) :
    ∃ (Ω : Type) (_ : MeasurableSpace Ω) (P : Measure Ω) (s : ℕ → Ω → (v : V) → HState (I v)),
      SghmcRun second P lr alpha beta L m s2 s ∧ ∀ n,
        Normal P (fun ω => both (s n ω)) (Sum.elim (flat m) 0) (sghmcCov second lr alpha beta s2 L) := by
  obtain ⟨Ω, mΩ, P, s, h1, h2⟩ := C85_sghmc_runs second lr alpha beta h.error_nonneg L m
    (Sum.elim (flat m) 0) h.cov_posDef.posSemidef
  exact ⟨Ω, mΩ, P, s, h1, fun n => (C85_sghmc_stationary h h1 h2 n).1⟩

/-- C85.  Under the stated conditions there are stationary runs of SGLD. -/
theorem C85_sgld_stationary_runs {lr s2 : ℝ} (hlr : 0 < lr) (hs2 : 0 ≤ s2) {L : Matrix (Comp I) (Comp I) ℝ}
    (hL : L.PosDef) (hs : ((1 : Matrix (Comp I) (Comp I) ℝ) - (lr / 4) • L).PosDef) (m : Lat I) :
    ∃ (Ω : Type) (_ : MeasurableSpace Ω) (P : Measure Ω) (q : ℕ → Ω → Lat I),
      SgldRun P lr L m s2 q ∧ ∀ n, Normal P (fun ω => flat (q n ω)) (flat m) (sgldCov lr s2 L) := by
  obtain ⟨Ω, mΩ, P, q, h1, h2⟩ := C85_sgld_runs lr hs2 L m (flat m)
    (sgldCov_posDef hlr hs2 hL hs).posSemidef
  exact ⟨Ω, mΩ, P, q, h1, fun n => (C85_sgld_stationary hlr hL hs h1 h2 n).1⟩

/-- A precision matrix with all components of all variables correlated: its eigenvalues are 1 and, for the
direction in which all components agree, 1 plus the number of components. -/
def corrL (I : V → Type) [DecidableEq (Comp I)] : Matrix (Comp I) (Comp I) ℝ := 1 + vecMulVec 1 1

theorem corr_posDef (a b : ℝ) (ha : 0 < a) (hab : b * (1 + Fintype.card (Comp I)) < a) (hb : 0 ≤ b) :
    (a • (1 : Matrix (Comp I) (Comp I) ℝ) - b • corrL I).PosDef := by
  refine PosDef.of_dotProduct_mulVec_pos ?_ fun u hu => ?_
  · ext i j
    simp [corrL, vecMulVec, Matrix.one_apply, eq_comm]
  · have e : star u ⬝ᵥ (a • (1 : Matrix (Comp I) (Comp I) ℝ) - b • corrL I).mulVec u =
        (a - b) * (∑ k, u k ^ 2) - b * (∑ k, u k) ^ 2 := by
      rw [corrL, sub_mulVec, smul_mulVec, smul_mulVec, add_mulVec, one_mulVec, vecMulVec_mulVec]
      simp only [dotProduct, star_trivial, Pi.sub_apply, Pi.smul_apply, Pi.add_apply, Pi.one_apply, one_mul,
        smul_eq_mul, MulOpposite.smul_eq_mul_unop, MulOpposite.unop_op]
      have : (∑ k, u k) ^ 2 = ∑ k, u k * ∑ l, u l := by
        rw [sq, Finset.sum_mul]
      rw [this, Finset.mul_sum, Finset.mul_sum, ← Finset.sum_sub_distrib]
      exact Finset.sum_congr rfl fun k _ => by ring
    rw [e]
    have h1 : (∑ k, u k) ^ 2 ≤ Fintype.card (Comp I) * ∑ k, u k ^ 2 := sq_sum_le_card_mul_sum_sq
    have h2 : 0 < ∑ k, u k ^ 2 := by
      obtain ⟨k, hk⟩ := Function.ne_iff.1 hu
      exact Finset.sum_pos' (fun k _ => sq_nonneg _) ⟨k, Finset.mem_univ k, by
        have : u k ≠ 0 := hk
        positivity⟩
    nlinarith [mul_le_mul_of_nonneg_left h1 hb]

/-- Such a posterior, friction 1/2, a small enough learning rate and gradient errors that are estimated right
meet the conditions. -/
example (second : Bool) {lr : ℝ} (h0 : 0 < lr) (h1 : lr / 2 * (1 + Fintype.card (Comp I)) < 3 / 2) :
    Stable second lr (1 / 2) (lr * (1 / 8) / 2) (1 / 8) (corrL I) := by
  have hL : (corrL I).PosDef := by
    have : (vecMulVec (1 : Comp I → ℝ) 1).PosSemidef := by
      simpa using posSemidef_vecMulVec_self_star (1 : Comp I → ℝ)
    exact PosDef.one.add_posSemidef this
  have hc : (0 : ℝ) ≤ Fintype.card (Comp I) := Nat.cast_nonneg _
  have hlr : lr < 3 := by nlinarith
  refine ⟨h0, by norm_num, by linarith, by norm_num, ?_, hL, corr_posDef _ _ ?_ (h1.trans_le ?_) (by positivity)⟩
  · rw [(C85_variance_estimate (by norm_num)).2 rfl]
    exact one_pos
  · cases second <;> simp only [stepBound, if_true, Bool.false_eq_true, if_false]
    · norm_num
    · have := Real.cosh_pos (1 / 2 / 2)
      positivity
  · cases second <;> simp only [stepBound, if_true, Bool.false_eq_true, if_false]
    · norm_num
    · have := Real.one_le_cosh (1 / 2 / 2)
      linarith

/-- The same for SGLD. -/
example {lr : ℝ} (h0 : 0 < lr) (h1 : lr / 4 * (1 + Fintype.card (Comp I)) < 1) :
    ((1 : Matrix (Comp I) (Comp I) ℝ) - (lr / 4) • corrL I).PosDef := by
  simpa using corr_posDef (I := I) 1 (lr / 4) one_pos h1 (by positivity)

/-- A learning rate for which SGLD on that posterior diverges. -/
example {lr : ℝ} (h : 4 ≤ lr * (1 + Fintype.card (Comp I))) :
    (corrL I)ᵀ = corrL I ∧ (corrL I).mulVec 1 = ((1 : ℝ) + Fintype.card (Comp I)) • 1 ∧
      4 ≤ lr * (1 + Fintype.card (Comp I)) := by
  refine ⟨?_, ?_, h⟩
  · ext i j
    simp [corrL, vecMulVec, Matrix.one_apply, eq_comm]
  · rw [corrL, add_mulVec, one_mulVec, vecMulVec_mulVec]
    funext k
    simp [dotProduct]

end ZhuSuan.Sgmcmc
