import Mathlib.Analysis.SpecialFunctions.Trigonometric.DerivHyp
import Mathlib.LinearAlgebra.Matrix.SchurComplement
import Mathlib.Topology.Algebra.Order.Archimedean
import Verif.Model.Transform
import Verif.Lemmas.Flow
import Verif.Lemmas.Shape
import Verif.Lemmas.Tensor
import Verif.Props.Discrete1

/-!
# C64, C65  Normalizing flows
-/

set_option autoImplicit false

open MeasureTheory Matrix

namespace ZhuSuan.Transform

open ZhuSuan.Shape

/-! ## C64 -/

section
variable {ι : Type} [Fintype ι]

theorem hasDerivAt_tanh (x : ℝ) : HasDerivAt Real.tanh (1 - Real.tanh x ^ 2) x := by
  have hc : Real.cosh x ≠ 0 := (Real.cosh_pos x).ne'
  have h := (Real.hasDerivAt_sinh x).div (Real.hasDerivAt_cosh x) hc
  have e : Real.tanh = Real.sinh / Real.cosh := funext fun y => by
    simp [Real.tanh_eq_sinh_div_cosh]
  rw [e]
  refine h.congr_deriv ?_
  show _ = 1 - (Real.sinh x / Real.cosh x) ^ 2
  field_simp

/-- The constraint on `u`: `w · u = log (1 + exp (w · û)) - 1`. -/
theorem scalar_eq (p : Planar ι) (hw : p.w ≠ 0) :
    p.scalar = Real.log (Real.exp (p.w ⬝ᵥ p.auxU) + 1) - 1 := by
  have hww : p.w ⬝ᵥ p.w ≠ 0 := fun h => hw (dotProduct_self_eq_zero.1 h)
  have e : p.u = p.auxU + ((Real.log (Real.exp (p.w ⬝ᵥ p.auxU) + 1) - 1 - p.w ⬝ᵥ p.auxU) / (p.w ⬝ᵥ p.w)) • p.w := by
    funext i
    simp only [Planar.u, Pi.add_apply, Pi.smul_apply, smul_eq_mul]
    ring
  rw [Planar.scalar, e, add_dotProduct, smul_dotProduct, smul_eq_mul, div_mul_cancel₀ _ hww,
    dotProduct_comm p.auxU p.w]
  ring

/-- C64.  The constraint holds strictly for all values of the variables, so the assertion never fails. -/
theorem C64_constraint (p : Planar ι) (hw : p.w ≠ 0) : -1 < p.scalar := by
  rw [scalar_eq p hw]
  have : 0 < Real.log (Real.exp (p.w ⬝ᵥ p.auxU) + 1) := Real.log_pos (by linarith [Real.exp_pos (p.w ⬝ᵥ p.auxU)])
  linarith

/-- The row part of the step. -/
theorem planarStep_fst (p : Planar ι) (z : ι → ℝ) (l : ℝ) :
    (planarStep p (z, l)).1 = z + Real.tanh (z ⬝ᵥ p.w + p.b) • p.u := rfl

theorem det_pos_aux (s a : ℝ) (hs : -1 < s) (ha : a ^ 2 < 1) : 0 < s * (1 - a * a) + 1 := by
  nlinarith [sq_nonneg a]

/-- The scalar map behind the planar step is a bijection. -/
theorem scalar_map_bijective (s b : ℝ) (hs : -1 < s) :
    Function.Bijective fun t : ℝ => t + Real.tanh (t + b) * s := by
  have hd : ∀ t : ℝ, HasDerivAt (fun t : ℝ => t + Real.tanh (t + b) * s) (1 + (1 - Real.tanh (t + b) ^ 2) * s) t := by
    intro t
    have h1 : HasDerivAt (fun t : ℝ => t + b) 1 t := (hasDerivAt_id t).add_const b
    have h2 := (hasDerivAt_tanh (t + b)).comp t h1
    have h3 := (hasDerivAt_id t).add (h2.mul_const s)
    refine HasDerivAt.congr_deriv h3 ?_
    simp
  have hmono : StrictMono fun t : ℝ => t + Real.tanh (t + b) * s := by
    refine strictMono_of_deriv_pos fun t => ?_
    rw [(hd t).deriv]
    have := det_pos_aux s _ hs (Real.tanh_sq_lt_one (t + b))
    nlinarith
  refine ⟨hmono.injective, ?_⟩
  have hcont : Continuous fun t : ℝ => t + Real.tanh (t + b) * s :=
    continuous_iff_continuousAt.2 fun t => (hd t).continuousAt
  intro y
  have hb : ∀ t, |Real.tanh (t + b) * s| ≤ |s| := by
    intro t
    rw [abs_mul]
    have := (Real.abs_tanh_lt_one (t + b)).le
    nlinarith [abs_nonneg s]
  have h1 := (abs_le.1 (hb (y - |s|))).2
  have h2 := (abs_le.1 (hb (y + |s|))).1
  have hle : y - |s| ≤ y + |s| := by linarith [abs_nonneg s]
  obtain ⟨t, _, ht⟩ := intermediate_value_Icc hle hcont.continuousOn
    (show y ∈ Set.Icc _ _ from ⟨by linarith, by linarith⟩)
  exact ⟨t, ht⟩

/-- C64.  Every step is a bijection of the space. -/
theorem C64_step_bijective (p : Planar ι) (hw : p.w ≠ 0) (l : ℝ) :
    Function.Bijective fun z => (planarStep p (z, l)).1 := by
  have hb := scalar_map_bijective p.scalar p.b (C64_constraint p hw)
  have hdot : ∀ z : ι → ℝ, (planarStep p (z, l)).1 ⬝ᵥ p.w =
      z ⬝ᵥ p.w + Real.tanh (z ⬝ᵥ p.w + p.b) * p.scalar := by
    intro z
    rw [planarStep_fst, add_dotProduct, smul_dotProduct, smul_eq_mul, Planar.scalar]
  constructor
  · intro z z' h
    have h1 : z ⬝ᵥ p.w = z' ⬝ᵥ p.w := by
      apply hb.1
      simp only
      rw [← hdot, ← hdot]
      exact congrArg (· ⬝ᵥ p.w) h
    simp only [planarStep_fst] at h
    rw [h1] at h
    exact add_right_cancel h
  · intro y
    obtain ⟨t, ht⟩ := hb.2 (y ⬝ᵥ p.w)
    refine ⟨y - Real.tanh (t + p.b) • p.u, ?_⟩
    have h1 : (y - Real.tanh (t + p.b) • p.u) ⬝ᵥ p.w = t := by
      rw [sub_dotProduct, smul_dotProduct, smul_eq_mul, ← ht, ← Planar.scalar]
      ring
    simp only [planarStep_fst, h1]
    exact sub_add_cancel _ _

/-- C64.  Every step is differentiable with positive Jacobian determinant, and the log density changes by minus the
logarithm of that determinant. -/
theorem C64_step_jacobian (p : Planar ι) (hw : p.w ≠ 0) (z : ι → ℝ) :
    ∃ f' : (ι → ℝ) →L[ℝ] (ι → ℝ), (∀ l, HasFDerivAt (fun z => (planarStep p (z, l)).1) f' z) ∧ 0 < f'.det ∧
      ∀ l, (planarStep p (z, l)).2 = l - Real.log f'.det := by
  classical
  let a := Real.tanh (z ⬝ᵥ p.w + p.b)
  let dotW : (ι → ℝ) →L[ℝ] ℝ := ∑ i, p.w i • ContinuousLinearMap.proj (R := ℝ) (φ := fun _ : ι => ℝ) i
  have hdotW : ∀ x : ι → ℝ, dotW x = x ⬝ᵥ p.w := fun x => by
    simp [dotW, dotProduct, mul_comm]
  let f' : (ι → ℝ) →L[ℝ] (ι → ℝ) := ContinuousLinearMap.id ℝ _ + ((1 - a ^ 2) • dotW).smulRight p.u
  have hf : ∀ l, HasFDerivAt (fun z => (planarStep p (z, l)).1) f' z := by
    intro l
    have h1 : HasFDerivAt (fun z : ι → ℝ => z ⬝ᵥ p.w + p.b) dotW z := by
      have : (fun z : ι → ℝ => z ⬝ᵥ p.w + p.b) = fun z => dotW z + p.b := funext fun x => by rw [hdotW]
      rw [this]
      exact dotW.hasFDerivAt.add_const _
    have h2 := (hasDerivAt_tanh (z ⬝ᵥ p.w + p.b)).comp_hasFDerivAt z h1
    have h3 := (hasFDerivAt_id z).add (h2.smul_const p.u)
    exact h3
  have hdet : f'.det = p.scalar * (1 - a * a) + 1 := by
    rw [Flow.det_toMatrix]
    have e : (Matrix.of fun j i => f' (Pi.single i 1) j) =
        1 + replicateCol Unit p.u * replicateRow Unit ((1 - a ^ 2) • p.w) := by
      ext j i
      simp only [of_apply, f', _root_.add_apply, ContinuousLinearMap.id_apply,
        ContinuousLinearMap.smulRight_apply, _root_.smul_apply, hdotW, Pi.add_apply, Pi.smul_apply,
        smul_eq_mul, Matrix.add_apply, Matrix.one_apply, Matrix.mul_apply, replicateCol_apply, replicateRow_apply,
        single_dotProduct, one_mul, Finset.univ_unique, Finset.sum_singleton, Pi.single_apply]
      ring
    rw [e, det_one_add_replicateCol_mul_replicateRow, smul_dotProduct, smul_eq_mul, Planar.scalar,
      dotProduct_comm p.w p.u]
    ring
  refine ⟨f', hf, ?_, fun l => ?_⟩
  · rw [hdet]
    exact det_pos_aux _ _ (C64_constraint p hw) (Real.tanh_sq_lt_one _)
  · rw [hdet]
    rfl

theorem planarFlow_isFlow (ps : List (Planar ι)) (hps : ∀ p ∈ ps, p.w ≠ 0) : Flow.IsFlow (planarFlow ps) := by
  induction ps with
  | nil => exact Flow.isFlow_id
  | cons p ps ih =>
    refine (ih fun p' hp' => hps p' (by simp [hp'])).comp (F := planarStep p) ⟨fun _ _ _ => rfl,
      C64_step_bijective p (hps p (by simp)) 0, fun z => ?_⟩
    obtain ⟨f', h1, h2, h3⟩ := C64_step_jacobian p (hps p (by simp)) z
    exact ⟨f', h1 0, h2.ne', fun l => by rw [h3, abs_of_pos h2]⟩

/-- C64.  The flow is a bijection for any number of iterations. -/
theorem C64_bijective (ps : List (Planar ι)) (hps : ∀ p ∈ ps, p.w ≠ 0) (l : ℝ) :
    Function.Bijective fun z => (planarFlow ps (z, l)).1 := by
  have h := planarFlow_isFlow ps hps
  have e : (fun z => (planarFlow ps (z, l)).1) = fun z => (planarFlow ps (z, 0)).1 := funext fun z => h.1 _ _ _
  rw [e]
  exact h.2.1

/-- C64.  If the samples have log density `lp` and are passed to the flow with these log densities, the returned
samples have the returned log densities, for any number of iterations: their law has the density `exp q`, for the
function `q` that at the returned sample has the returned value. -/
theorem C64_log_density (ps : List (Planar ι)) (hps : ∀ p ∈ ps, p.w ≠ 0) (lp q : (ι → ℝ) → ℝ)
    (hq : ∀ x, q (planarFlow ps (x, lp x)).1 = (planarFlow ps (x, lp x)).2) :
    (volume.withDensity fun x => ENNReal.ofReal (Real.exp (lp x))).map (fun x => (planarFlow ps (x, lp x)).1) =
      volume.withDensity fun y => ENNReal.ofReal (Real.exp (q y)) :=
  (planarFlow_isFlow ps hps).density lp q hq

/-- The function `q` of `C64_log_density` exists. -/
theorem C64_log_density_exists (ps : List (Planar ι)) (hps : ∀ p ∈ ps, p.w ≠ 0) (lp : (ι → ℝ) → ℝ) :
    ∃! q : (ι → ℝ) → ℝ, ∀ x, q (planarFlow ps (x, lp x)).1 = (planarFlow ps (x, lp x)).2 :=
  (planarFlow_isFlow ps hps).exists_unique lp

example : ∀ p ∈ ([⟨0, fun _ => 1, fun _ => 2⟩, ⟨1, fun _ => -3, fun _ => 1⟩] : List (Planar (Fin 2))), p.w ≠ 0 := by
  intro p hp h
  have := congrFun h 0
  simp only [List.mem_cons, List.not_mem_nil, or_false] at hp
  rcases hp with rfl | rfl <;> norm_num at this

end

/-- C64, C65.  The argument checks: the flow runs if and only if `n_iters` is an `int`, the samples have at least
two axes and the log densities have exactly the shape of the samples without the last axis. -/
theorem C64_guard (isInt : Bool) (s l : Static) (ds dl : List ℕ) (hs : Admits s ds) (hl : Admits l dl) :
    flowCheck isInt s l ds dl = .accepted ↔ isInt = true ∧ 2 ≤ ds.length ∧ dl = ds.dropLast := by
  constructor
  · intro h
    simp only [flowCheck] at h
    split_ifs at h with h1 h2 h3 h4 h5 h6 h7
    refine ⟨by simpa using h1, by omega, ?_⟩
    exact (not_not.1 h7).symm
  · rintro ⟨rfl, h2, rfl⟩
    have hd : Admits (s.dropEnd 1) ds.dropLast := by
      cases s with
      | none => exact trivial
      | some a =>
        have hf : List.Forall₂ (fun o n => o = none ∨ o = some n) a ds := hs
        have hlen := hf.length_eq
        show List.Forall₂ _ (a.take (a.length - 1)) ds.dropLast
        rw [List.dropLast_eq_take, ← hlen]
        exact List.forall₂_take _ hf
    have hb : sbcast (s.dropEnd 1) l ≠ none := fun h => by
      have := (sbcast_sound hd hl).1 h
      rw [bcast_self] at this
      exact absurd this (by simp)
    have hls : ∀ a, s = some a → a.length = ds.length := by
      rintro a rfl
      exact List.Forall₂.length_eq hs
    have hll : ∀ a, l = some a → a.length = ds.length - 1 := by
      rintro a rfl
      have := List.Forall₂.length_eq hl
      simpa using this
    simp only [flowCheck]
    rw [if_neg (by simp), if_neg, if_neg, if_neg hb, if_neg (by omega), if_neg, if_neg (by simp)]
    · simp; omega
    · rintro ⟨g1, g2, g3⟩
      cases hs' : s with
      | none => rw [hs'] at g1; simp at g1
      | some a =>
        cases hl' : l with
        | none => rw [hl'] at g2; simp at g2
        | some b =>
          rw [hs', hl'] at g3
          simp only at g3
          have := hls a hs'
          have := hll b hl'
          omega
    · rintro ⟨g1, g2⟩
      cases hs' : s with
      | none => rw [hs'] at g1; simp at g1
      | some a =>
        rw [hs'] at g2
        simp only at g2
        have := hls a hs'
        omega

/-- C64.  The planar flow also needs the length of the last axis to be known when the graph is built. -/
theorem C64_planar_guard (isInt : Bool) (s l : Static) (ds dl : List ℕ) (hs : Admits s ds) (hl : Admits l dl) :
    planarCheck isInt s l ds dl = .accepted ↔
      isInt = true ∧ 2 ≤ ds.length ∧ dl = ds.dropLast ∧ ∃ init n, s = some (init ++ [some n]) := by
  have hg := C64_guard isInt s l ds dl hs hl
  have hk : 2 ≤ ds.length → (lastKnown s = true ↔ ∃ init n, s = some (init ++ [some n])) := by
    intro h2
    cases s with
    | none => simp [lastKnown]
    | some a =>
      have hlen : 2 ≤ a.length := by rw [List.Forall₂.length_eq hs]; exact h2
      obtain rfl | ⟨init, o, rfl⟩ := List.eq_nil_or_concat' a
      · simp at hlen
      · simp only [lastKnown, List.length_append, List.length_singleton, Nat.add_sub_cancel, List.drop_left,
          List.all_cons, List.all_nil, Bool.and_true, Option.some.injEq]
        constructor
        · intro h
          obtain ⟨n, rfl⟩ := Option.isSome_iff_exists.1 h
          exact ⟨init, n, rfl⟩
        · rintro ⟨i', n, h⟩
          have := (List.append_inj' h rfl).2
          simp only [List.cons.injEq, and_true] at this
          subst this
          rfl
  unfold planarCheck
  constructor
  · intro h
    have hacc : flowCheck isInt s l ds dl = .accepted ∧ lastKnown s = true := by
      revert h
      cases flowCheck isInt s l ds dl <;> by_cases hk' : lastKnown s = true <;> simp [hk']
    obtain ⟨h1, h2, h3⟩ := hg.1 hacc.1
    exact ⟨h1, h2, h3, (hk h2).1 hacc.2⟩
  · rintro ⟨h1, h2, h3, h4⟩
    rw [hg.2 ⟨h1, h2, h3⟩]
    simp [(hk h2).2 h4]

example : planarCheck true (some [none, some 2]) none [3, 2] [3] = .accepted := by
  refine (C64_planar_guard true (some [none, some 2]) none [3, 2] [3] ?_ trivial).2 ⟨rfl, by simp, rfl, [none], 2, rfl⟩
  simp [Admits]


/-! ## C65 -/

section
variable {d : ℕ}

/-- Output `j` depends only on the inputs before `j`. -/
def Autoregressive (g : (Fin d → ℝ) → Fin d → ℝ) : Prop :=
  ∀ z z' j, (∀ i < j, z i = z' i) → g z j = g z' j

/-- C65.  `linear_ar` is autoregressive and differentiable with positive scales. -/
theorem C65_linear_ar (mW sW : Fin d → Fin d → ℝ) :
    Autoregressive (fun z => (linearAr mW sW z).1) ∧ Autoregressive (fun z => (linearAr mW sW z).2) ∧
    Differentiable ℝ (fun z => (linearAr mW sW z).1) ∧ Differentiable ℝ (fun z => (linearAr mW sW z).2) ∧
    ∀ z j, 0 < (linearAr mW sW z).2 j := by
  have hsum : ∀ (w : Fin d → Fin d → ℝ) (z z' : Fin d → ℝ) (j : Fin d), (∀ i < j, z i = z' i) →
      ∑ i, z i * masked w i j = ∑ i, z' i * masked w i j := by
    intro w z z' j h
    refine Finset.sum_congr rfl fun i _ => ?_
    by_cases hij : i < j
    · rw [h i hij]
    · simp [masked, hij]
  refine ⟨fun z z' j h => hsum mW z z' j h, fun z z' j h => ?_, ?_, ?_, fun z j => Real.exp_pos _⟩
  · show Real.exp _ = Real.exp _
    rw [hsum sW z z' j h]
  · simp only [linearAr]
    fun_prop
  · simp only [linearAr]
    fun_prop

/-- The affine map with autoregressive coefficients. -/
def arMap (a c : (Fin d → ℝ) → Fin d → ℝ) (z : Fin d → ℝ) : Fin d → ℝ := fun j => a z j * z j + c z j

theorem arMap_bijective (a c : (Fin d → ℝ) → Fin d → ℝ) (ha : Autoregressive a) (hc : Autoregressive c)
    (hpos : ∀ z j, a z j ≠ 0) : Function.Bijective (arMap a c) := by
  constructor
  · intro z z' h
    have key : ∀ n (j : Fin d), j.val < n → z j = z' j := by
      intro n
      induction n with
      | zero => intro j hj; omega
      | succ n ih =>
        intro j hj
        have hlt : ∀ i < j, z i = z' i := fun i hi => ih i (by have := Fin.lt_def.1 hi; omega)
        have h1 := congrFun h j
        simp only [arMap] at h1
        rw [ha z z' j hlt, hc z z' j hlt] at h1
        exact mul_left_cancel₀ (hpos z' j) (add_right_cancel h1)
    exact funext fun j => key d j j.2
  · intro y
    let G : (Fin d → ℝ) → Fin d → ℝ := fun z j => (y j - c z j) / a z j
    let s : ℕ → Fin d → ℝ := fun n => G^[n] 0
    have hs : ∀ n, s (n + 1) = G (s n) := fun n => Function.iterate_succ_apply' G n 0
    have key : ∀ n (j : Fin d), j.val < n → s (n + 1) j = s n j := by
      intro n
      induction n with
      | zero => intro j hj; omega
      | succ n ih =>
        intro j hj
        have hlt : ∀ i < j, s (n + 1) i = s n i := fun i hi => ih i (by have := Fin.lt_def.1 hi; omega)
        rw [hs (n + 1)]
        conv_rhs => rw [hs n]
        simp only [G]
        rw [ha _ _ j hlt, hc _ _ j hlt]
    refine ⟨s d, funext fun j => ?_⟩
    have h := key d j j.2
    rw [hs d] at h
    simp only [G] at h
    simp only [arMap]
    rw [← h, mul_div_cancel₀ _ (hpos _ _)]
    ring

theorem arMap_jacobian (a c : (Fin d → ℝ) → Fin d → ℝ) (ha : Autoregressive a) (hc : Autoregressive c)
    (hda : Differentiable ℝ a) (hdc : Differentiable ℝ c) (z : Fin d → ℝ) :
    ∃ f' : (Fin d → ℝ) →L[ℝ] (Fin d → ℝ), HasFDerivAt (arMap a c) f' z ∧ f'.det = ∏ j, a z j := by
  have hd : Differentiable ℝ (arMap a c) := by
    have h1 : Differentiable ℝ fun z : Fin d → ℝ => z := differentiable_id
    have : arMap a c = fun z => a z * z + c z := rfl
    rw [this]
    exact (hda.mul h1).add hdc
  refine ⟨fderiv ℝ (arMap a c) z, (hd z).hasFDerivAt, ?_⟩
  have hcomp : ∀ j, HasFDerivAt (fun x => arMap a c x j)
      ((ContinuousLinearMap.proj (R := ℝ) (φ := fun _ : Fin d => ℝ) j).comp (fderiv ℝ (arMap a c) z)) z := fun j =>
    hasFDerivAt_pi'.1 (hd z).hasFDerivAt j
  have hupd : ∀ (i j : Fin d) (t : ℝ), j ≤ i → (∀ k < j, Function.update z i t k = z k) := fun i j t hji k hk =>
    Function.update_of_ne (ne_of_lt (lt_of_lt_of_le hk hji)) _ _
  have hdiag : ∀ j, fderiv ℝ (arMap a c) z (Pi.single j 1) j = a z j := by
    intro j
    refine Flow.fderiv_single_eq _ _ z (hcomp j) j (a z j) (c z j) fun t => ?_
    simp only [arMap]
    rw [ha _ z j (hupd j j t le_rfl), hc _ z j (hupd j j t le_rfl), Function.update_self]
  have hlow : ∀ j i, j < i → fderiv ℝ (arMap a c) z (Pi.single i 1) j = 0 := by
    intro j i hji
    refine Flow.fderiv_single_eq _ _ z (hcomp j) i 0 (arMap a c z j) fun t => ?_
    simp only [arMap]
    rw [ha _ z j (hupd i j t hji.le), hc _ z j (hupd i j t hji.le), Function.update_of_ne (ne_of_lt hji)]
    ring
  rw [Flow.det_toMatrix, det_of_lowerTriangular]
  · exact Finset.prod_congr rfl fun j _ => hdiag j
  · intro j i hij
    exact hlow j i hij

theorem arMap_isFlow (a c : (Fin d → ℝ) → Fin d → ℝ) (ha : Autoregressive a) (hc : Autoregressive c)
    (hda : Differentiable ℝ a) (hdc : Differentiable ℝ c) (hpos : ∀ z j, 0 < a z j) :
    Flow.IsFlow fun x : (Fin d → ℝ) × ℝ => (arMap a c x.1, x.2 - ∑ j, Real.log (a x.1 j)) := by
  refine ⟨fun _ _ _ => rfl, arMap_bijective a c ha hc fun z j => (hpos z j).ne', fun z => ?_⟩
  obtain ⟨f', h1, h2⟩ := arMap_jacobian a c ha hc hda hdc z
  have hp : 0 < ∏ j, a z j := Finset.prod_pos fun j _ => hpos z j
  refine ⟨f', h1, by rw [h2]; exact hp.ne', fun l => ?_⟩
  rw [h2, abs_of_pos hp, Real.log_prod fun j _ => (hpos z j).ne']

theorem reverse_isFlow : Flow.IsFlow fun x : (Fin d → ℝ) × ℝ => (fun j => x.1 j.rev, x.2) := by
  let R : (Fin d → ℝ) →L[ℝ] (Fin d → ℝ) := ContinuousLinearMap.pi fun j =>
    ContinuousLinearMap.proj (R := ℝ) (φ := fun _ : Fin d => ℝ) j.rev
  have hR : ∀ x, R (R x) = x := fun x => funext fun j => by simp [R]
  have hdet := Flow.abs_det_involution R hR
  refine ⟨fun _ _ _ => rfl, ?_, fun z => ⟨R, R.hasFDerivAt, ?_, fun l => ?_⟩⟩
  · exact Function.bijective_iff_has_inverse.2 ⟨R, hR, hR⟩
  · intro h
    rw [h] at hdet
    simp at hdet
  · rw [hdet, Real.log_one, sub_zero]

/-- What is asked of the network of one iteration: autoregressive and differentiable; for the update `normal` with
positive scales. -/
structure GoodNet (update : String) (nn : (Fin d → ℝ) → (Fin d → ℝ) × (Fin d → ℝ)) : Prop where
  ar_m : Autoregressive fun z => (nn z).1
  ar_s : Autoregressive fun z => (nn z).2
  diff_m : Differentiable ℝ fun z => (nn z).1
  diff_s : Differentiable ℝ fun z => (nn z).2
  pos : update = "normal" → ∀ z j, 0 < (nn z).2 j

theorem iafStep_isFlow (update : String) (nn : (Fin d → ℝ) → (Fin d → ℝ) × (Fin d → ℝ)) (h : GoodNet update nn) :
    Flow.IsFlow (iafStep update nn) := by
  by_cases hn : update = "normal"
  · subst hn
    have h1 := (reverse_isFlow (d := d)).comp (arMap_isFlow (fun z => (nn z).2) (fun z => (nn z).1) h.ar_s h.ar_m
      h.diff_s h.diff_m (h.pos rfl))
    have e : iafStep "normal" nn = (fun x : (Fin d → ℝ) × ℝ => ((fun j => x.1 j.rev : Fin d → ℝ), x.2)) ∘
        fun x : (Fin d → ℝ) × ℝ => (arMap (fun z => (nn z).2) (fun z => (nn z).1) x.1,
          x.2 - ∑ j, Real.log ((nn x.1).2 j)) := by
      funext x
      simp [iafStep, arMap]
    rw [e]
    exact h1
  · by_cases hg : update = "gru"
    · subst hg
      have hsig : Differentiable ℝ Uni.sigmoid := by
        have : Uni.sigmoid = fun x => 1 / (1 + Real.exp (-x)) := rfl
        rw [this]
        intro x
        have hx : (1 + Real.exp (-x)) ≠ 0 := by positivity
        fun_prop (disch := exact hx)
      have hds : Differentiable ℝ fun z : Fin d → ℝ => fun j => Uni.sigmoid ((nn z).2 j) :=
        differentiable_pi.2 fun j => hsig.comp (differentiable_pi.1 h.diff_s j)
      have hdm : Differentiable ℝ fun z : Fin d → ℝ => fun j => (1 - Uni.sigmoid ((nn z).2 j)) * (nn z).1 j :=
        differentiable_pi.2 fun j =>
          ((differentiable_const (1 : ℝ)).sub (differentiable_pi.1 hds j)).mul (differentiable_pi.1 h.diff_m j)
      have h1 := (reverse_isFlow (d := d)).comp (arMap_isFlow (fun z j => Uni.sigmoid ((nn z).2 j))
        (fun z j => (1 - Uni.sigmoid ((nn z).2 j)) * (nn z).1 j)
        (fun z z' j hz => by
          have e1 : (nn z).2 j = (nn z').2 j := h.ar_s z z' j hz
          simp only [e1])
        (fun z z' j hz => by
          have e1 : (nn z).2 j = (nn z').2 j := h.ar_s z z' j hz
          have e2 : (nn z).1 j = (nn z').1 j := h.ar_m z z' j hz
          simp only [e1, e2]) hds hdm
        fun z j => Uni.sigmoid_pos _)
      have e : iafStep "gru" nn = (fun x : (Fin d → ℝ) × ℝ => ((fun j => x.1 j.rev : Fin d → ℝ), x.2)) ∘
          fun x : (Fin d → ℝ) × ℝ => (arMap (fun z j => Uni.sigmoid ((nn z).2 j))
            (fun z j => (1 - Uni.sigmoid ((nn z).2 j)) * (nn z).1 j) x.1,
            x.2 - ∑ j, Real.log (Uni.sigmoid ((nn x.1).2 j))) := by
        funext x
        simp [iafStep, arMap]
      rw [e]
      exact h1
    · have e : iafStep update nn = fun x : (Fin d → ℝ) × ℝ => ((fun j => x.1 j.rev : Fin d → ℝ), x.2) := by
        funext x
        simp [iafStep, hn, hg]
      rw [e]
      exact reverse_isFlow

theorem iafFlow_isFlow (update : String) (nns : List ((Fin d → ℝ) → (Fin d → ℝ) × (Fin d → ℝ)))
    (h : ∀ nn ∈ nns, GoodNet update nn) : Flow.IsFlow (iafFlow update nns) := by
  induction nns with
  | nil => exact Flow.isFlow_id
  | cons nn nns ih =>
    exact (ih fun n hn => h n (by simp [hn])).comp (iafStep_isFlow update nn (h nn (by simp)))

/-- C65.  Both updates before the reversal, as documented: `s z + m` with log density minus `Σ log s`, and
`σ(s) z + (1 - σ(s)) m` with minus `Σ log σ(s)`; then the coordinates are reversed. -/
theorem C65_update (nn : (Fin d → ℝ) → (Fin d → ℝ) × (Fin d → ℝ)) (z : Fin d → ℝ) (l : ℝ) :
    (iafStep "normal" nn (z, l) =
      (fun j => (nn z).2 j.rev * z j.rev + (nn z).1 j.rev, l - ∑ j, Real.log ((nn z).2 j))) ∧
    (iafStep "gru" nn (z, l) =
      (fun j => (1 / (1 + Real.exp (-(nn z).2 j.rev))) * z j.rev +
          (1 - 1 / (1 + Real.exp (-(nn z).2 j.rev))) * (nn z).1 j.rev,
        l - ∑ j, Real.log (1 / (1 + Real.exp (-(nn z).2 j))))) := by
  constructor <;> simp [iafStep, Uni.sigmoid]

/-- C65.  The Jacobian of the step before the reversal is lower triangular with the scales on its diagonal, so its
determinant is their product. -/
theorem C65_jacobian (nn : (Fin d → ℝ) → (Fin d → ℝ) × (Fin d → ℝ)) (h : GoodNet "normal" nn) (z : Fin d → ℝ) :
    ∃ f' : (Fin d → ℝ) →L[ℝ] (Fin d → ℝ), HasFDerivAt (fun z j => (nn z).2 j * z j + (nn z).1 j) f' z ∧
      f'.det = ∏ j, (nn z).2 j :=
  arMap_jacobian _ _ h.ar_s h.ar_m h.diff_s h.diff_m z

/-- C65.  The flow is a bijection for any number of iterations. -/
theorem C65_bijective (update : String) (nns : List ((Fin d → ℝ) → (Fin d → ℝ) × (Fin d → ℝ)))
    (h : ∀ nn ∈ nns, GoodNet update nn) (l : ℝ) : Function.Bijective fun z => (iafFlow update nns (z, l)).1 := by
  have h := iafFlow_isFlow update nns h
  have e : (fun z => (iafFlow update nns (z, l)).1) = fun z => (iafFlow update nns (z, 0)).1 :=
    funext fun z => h.1 _ _ _
  rw [e]
  exact h.2.1

/-- C65.  The returned samples have the returned log densities, for any number of iterations. -/
theorem C65_log_density (update : String) (nns : List ((Fin d → ℝ) → (Fin d → ℝ) × (Fin d → ℝ)))
    (h : ∀ nn ∈ nns, GoodNet update nn) (lp q : (Fin d → ℝ) → ℝ)
    (hq : ∀ x, q (iafFlow update nns (x, lp x)).1 = (iafFlow update nns (x, lp x)).2) :
    (volume.withDensity fun x => ENNReal.ofReal (Real.exp (lp x))).map (fun x => (iafFlow update nns (x, lp x)).1) =
      volume.withDensity fun y => ENNReal.ofReal (Real.exp (q y)) :=
  (iafFlow_isFlow update nns h).density lp q hq

/-- The function `q` of `C65_log_density` exists. -/
theorem C65_log_density_exists (update : String) (nns : List ((Fin d → ℝ) → (Fin d → ℝ) × (Fin d → ℝ)))
    (h : ∀ nn ∈ nns, GoodNet update nn) (lp : (Fin d → ℝ) → ℝ) :
    ∃! q : (Fin d → ℝ) → ℝ, ∀ x, q (iafFlow update nns (x, lp x)).1 = (iafFlow update nns (x, lp x)).2 :=
  (iafFlow_isFlow update nns h).exists_unique lp

/-- The networks built by `linear_ar` are as required, for both updates and all values of their variables. -/
theorem C65_linear_ar_good (update : String) (mW sW : Fin d → Fin d → ℝ) : GoodNet update (linearAr mW sW) := by
  obtain ⟨h1, h2, h3, h4, h5⟩ := C65_linear_ar mW sW
  exact ⟨h1, h2, h3, h4, fun _ => h5⟩

/-- C65, partial.  All of it together for the networks of `linear_ar` and the two update rules: every sample comes
from exactly one input, and the returned log density is that of the returned sample.  Missing: an unknown update rule
should be refused, see `C65_unknown_update`. -/
theorem C65_linear_ar_flow_partial (update : String) (ps : List ((Fin d → Fin d → ℝ) × (Fin d → Fin d → ℝ)))
    (lp : (Fin d → ℝ) → ℝ) :
    let nns := ps.map fun p => linearAr p.1 p.2
    (∀ l, Function.Bijective fun z => (iafFlow update nns (z, l)).1) ∧
    ∃! q : (Fin d → ℝ) → ℝ, (∀ x, q (iafFlow update nns (x, lp x)).1 = (iafFlow update nns (x, lp x)).2) ∧
      (volume.withDensity fun x => ENNReal.ofReal (Real.exp (lp x))).map (fun x => (iafFlow update nns (x, lp x)).1) =
        volume.withDensity fun y => ENNReal.ofReal (Real.exp (q y)) := by
  intro nns
  have h : ∀ nn ∈ nns, GoodNet update nn := by
    intro nn hn
    obtain ⟨p, _, rfl⟩ := List.mem_map.1 hn
    exact C65_linear_ar_good update p.1 p.2
  refine ⟨C65_bijective update nns h, ?_⟩
  obtain ⟨q, hq, hu⟩ := C65_log_density_exists update nns h lp
  exact ⟨q, ⟨hq, C65_log_density update nns h lp q hq⟩, fun q' h' => hu q' h'.1⟩

/-- C65, finding.  An unknown update rule is not refused: the iterations only reverse the coordinates, so that two of
them do nothing. -/
theorem C65_unknown_update (update : String) (h1 : update ≠ "normal") (h2 : update ≠ "gru")
    (nn nn' : (Fin d → ℝ) → (Fin d → ℝ) × (Fin d → ℝ)) (x : (Fin d → ℝ) × ℝ) :
    iafFlow update [nn, nn'] x = x := by
  simp [iafFlow, iafStep, h1, h2]

end

end ZhuSuan.Transform
