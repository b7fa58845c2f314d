import Verif.Lemmas.SgldStep

/-!
# Bounds on one step of SGLD beside a step that preserves the posterior
-/

set_option autoImplicit false

open MeasureTheory ProbabilityTheory Filter Topology Set
open ZhuSuan.Sgmcmc

namespace ZhuSuan.SgWeak

theorem cross_split {V : Type} {I : V → Type} [Fintype V] [∀ v, Fintype (I v)] (A d0 ξ ξ0 : Lat I) :
    2 * dot A ξ = 2 * dot d0 ξ0 + 2 * dot d0 (ξ - ξ0) + 2 * dot (A - d0) ξ := by
  rw [dot_sub_right, dot_sub_left]
  ring

theorem combine {N c D cr R E q : ℝ} (hc : 0 ≤ c) (c1 : c ≤ 1) (hD : 0 ≤ D) (hR : 0 ≤ R) (nA : N ≤ (1 - 2 * c) * D + cr + R)
    (hq : E ≤ (1 + c) * N + q) : E ≤ (1 - c) * D + (1 + c) * cr + 2 * R + q := by
  have f1 := mul_le_mul_of_nonneg_left nA (by linarith : 0 ≤ 1 + c)
  have f2 := mul_le_mul_of_nonneg_right c1 hR
  have f3 : (1 + c) * ((1 - 2 * c) * D) ≤ (1 - c) * D := by
    rw [← mul_assoc]
    exact mul_le_mul_of_nonneg_right (by nlinarith) hD
  nlinarith

end ZhuSuan.SgWeak

namespace ZhuSuan.SgWeak.Before

variable {V : Type} {I : V → Type} [Fintype V] [∀ v, Fintype (I v)] {Ω : Type} [MeasurableSpace Ω]
  {S : Type*} [MeasurableSpace S] {W : Measure S} {P : Measure Ω} {l : Lat I → ℝ} {G : Ω → Lat I → Lat I} {m L : ℝ}
  {X0 Y0 X Y Z : S → Lat I} {om : S → Ω} {U : S → ℝ} (hl : StrongConcave l m L) (hB : Before W P l G L X0 Y0 X Y Z om U)
  {lr : ℝ}

include hl hB

theorem mem_move (lr : ℝ) : MemLp (fun s => move lr (X s) (G (om s) (X s)) (Z s)) 2 W :=
  hB.memX.add (((hB.memG hB.memX).const_smul (lr / 2)).add ((hB.memZ hl).const_smul (√lr)))

theorem incr_le (h0 : 0 < lr) (h1 : lr ≤ 1) (s : S) : nsq ((lr / 2) • G (om s) (X s) + √lr • Z s) ≤
    lr * (nsq (G (om s) 0) + L ^ 2 * nsq (X s) + 2 * nsq (Z s)) := by
  have a := nsq_add_le ((lr / 2) • G (om s) (X s)) (√lr • Z s)
  rw [nsq_smul, nsq_smul, Real.sq_sqrt h0.le] at a
  have b := hB.G_le (om s) (X s)
  have c := nsq_nonneg (G (om s) (X s))
  have d : (lr / 2) ^ 2 * nsq (G (om s) (X s)) ≤ lr / 4 * nsq (G (om s) (X s)) :=
    mul_le_mul_of_nonneg_right (by nlinarith) c
  have e := mul_le_mul_of_nonneg_left b h0.le
  nlinarith

/-- The second moment after the step. -/
theorem sq_next (h0 : 0 < lr) (h1 : lr ≤ 1) : ∫ s, nsq (move lr (X s) (G (om s) (X s)) (Z s)) ∂W ≤
    (2 + 2 * L ^ 2) * (∫ s, nsq (X s) ∂W) + 2 * (∫ ω, nsq (G ω 0) ∂P) + 4 * dim I := by
  have _ := hB.prob
  have i0 : Integrable (fun _ : S => (0 : ℝ)) W := integrable_zero _ _ _
  have := int_le5 (2 + 2 * L ^ 2) 2 4 0 0 (nsq_int (hB.mem_move hl lr)) (nsq_int hB.memX) hB.g0_int (nsq_int (hB.memZ hl)) i0 i0
    (fun s => ?_)
  · rw [hB.g0_eq, hB.Z_eq hl] at this
    linarith
  · have a := nsq_add_le (X s) ((lr / 2) • G (om s) (X s) + √lr • Z s)
    have b := hB.incr_le hl h0 h1 s
    have c1 := nsq_nonneg (G (om s) 0)
    have c2 := mul_nonneg (sq_nonneg L) (nsq_nonneg (X s))
    have c3 := nsq_nonneg (Z s)
    have c : lr * (nsq (G (om s) 0) + L ^ 2 * nsq (X s) + 2 * nsq (Z s)) ≤
        1 * (nsq (G (om s) 0) + L ^ 2 * nsq (X s) + 2 * nsq (Z s)) := mul_le_mul_of_nonneg_right h1 (by positivity)
    unfold move
    linarith

/-- How far the chain is from the start of the epoch after the step. -/
theorem move_next (h0 : 0 < lr) (h1 : lr ≤ 1) : ∫ s, nsq (move lr (X s) (G (om s) (X s)) (Z s) - X0 s) ∂W ≤
    2 * (∫ s, nsq (X s - X0 s) ∂W) + lr * (2 * (∫ ω, nsq (G ω 0) ∂P) + 2 * L ^ 2 * (∫ s, nsq (X s) ∂W) + 4 * dim I) := by
  have _ := hB.prob
  have i0 : Integrable (fun _ : S => (0 : ℝ)) W := integrable_zero _ _ _
  have := int_le5 2 (lr * 2) (lr * (2 * L ^ 2)) (lr * 4) 0 (nsq_int ((hB.mem_move hl lr).sub hB.memX0))
    (nsq_int (hB.memX.sub hB.memX0)) hB.g0_int (nsq_int hB.memX) (nsq_int (hB.memZ hl)) i0 (fun s => ?_)
  · rw [hB.g0_eq, hB.Z_eq hl] at this
    simp only [Pi.sub_apply] at this
    linarith
  · simp only [Pi.sub_apply]
    have a := nsq_add_le (X s - X0 s) ((lr / 2) • G (om s) (X s) + √lr • Z s)
    have b := hB.incr_le hl h0 h1 s
    have e : move lr (X s) (G (om s) (X s)) (Z s) - X0 s = X s - X0 s + ((lr / 2) • G (om s) (X s) + √lr • Z s) := by
      rw [move]
      abel
    rw [e]
    linarith

/-- How much the difference of the two chains has changed since the start of the epoch. -/
theorem diff_next (h0 : 0 < lr) :
    ∫ s, nsq (move lr (X s) (G (om s) (X s)) (Z s) - mala l (√lr) (Y s) (Z s) (U s) - (X0 s - Y0 s)) ∂W ≤
    2 * (∫ s, nsq (X s - Y s - (X0 s - Y0 s)) ∂W) + lr ^ 2 * (4 * (∫ ω, nsq (G ω 0) ∂P) + 4 * L ^ 2 * (∫ s, nsq (X s) ∂W) +
      4 * L ^ 2 * (∫ y, nsq y ∂posterior l) + 4 * nsq (pd l 0)) + 4 * rho l lr := by
  have _ := hB.prob
  have hY' : MemLp (fun s => mala l (√lr) (Y s) (Z s) (U s)) 2 W := hl.memLp_post.comp_measurePreserving (hB.next hl _)
  have i1 : Integrable (fun s => 4 * (nsq (G (om s) 0) + L ^ 2 * nsq (X s) + L ^ 2 * nsq (Y s) + nsq (pd l 0))) W :=
    (((hB.g0_int.add ((nsq_int hB.memX).const_mul _)).add ((nsq_int (hB.memY hl)).const_mul _)).add (integrable_const _)).const_mul 4
  have i0 : Integrable (fun _ : S => (0 : ℝ)) W := integrable_zero _ _ _
  have k := int_le5 2 (lr ^ 2) 4 0 0 (nsq_int (((hB.mem_move hl lr).sub hY').sub (hB.memX0.sub hB.memY0)))
    (nsq_int ((hB.memX.sub (hB.memY hl)).sub (hB.memX0.sub hB.memY0))) i1 (nsq_int (hB.mem_disp hl (√lr))) i0 i0 (fun s => ?_)
  · rw [hB.disp_eq hl] at k
    have k2 := int_le5 (f := fun s => 4 * (nsq (G (om s) 0) + L ^ 2 * nsq (X s) + L ^ 2 * nsq (Y s) + nsq (pd l 0)))
      4 (4 * L ^ 2) (4 * L ^ 2) (4 * nsq (pd l 0)) 0 i1 hB.g0_int (nsq_int hB.memX) (nsq_int (hB.memY hl))
      (integrable_const (1 : ℝ)) i0 (fun s => by ring_nf; rfl)
    rw [hB.g0_eq, hB.Y_eq hl] at k2
    simp only [integral_const, probReal_univ, smul_eq_mul, mul_one, mul_zero, add_zero, one_mul] at k2 k
    have k3 := mul_le_mul_of_nonneg_left k2 (sq_nonneg lr)
    simp only [Pi.sub_apply] at k
    linarith
  · simp only [Pi.sub_apply]
    rw [move_sub_mala h0.le]
    have e : X s - Y s + ((lr / 2) • (G (om s) (X s) - pd l (Y s)) - disp l (√lr) (Y s) (Z s) (U s)) - (X0 s - Y0 s) =
      (X s - Y s - (X0 s - Y0 s)) + ((lr / 2) • (G (om s) (X s) - pd l (Y s)) - disp l (√lr) (Y s) (Z s) (U s)) := by abel
    rw [e]
    have a := nsq_add_le (X s - Y s - (X0 s - Y0 s)) ((lr / 2) • (G (om s) (X s) - pd l (Y s)) - disp l (√lr) (Y s) (Z s) (U s))
    have b := nsq_sub_le ((lr / 2) • (G (om s) (X s) - pd l (Y s))) (disp l (√lr) (Y s) (Z s) (U s))
    rw [nsq_smul] at b
    have c := nsq_sub_le (G (om s) (X s)) (pd l (Y s))
    have d := hB.G_le (om s) (X s)
    have f := hl.grad_le (Y s)
    have c' : nsq (G (om s) (X s) - pd l (Y s)) ≤
        4 * (nsq (G (om s) 0) + L ^ 2 * nsq (X s) + L ^ 2 * nsq (Y s) + nsq (pd l 0)) := by linarith
    have g := mul_le_mul_of_nonneg_left c' (sq_nonneg lr)
    nlinarith

/-- The distance of the two chains after the step. -/
theorem main_next (h0 : 0 < lr) (hm : m * lr ≤ 1) (hL : lr * L ^ 2 ≤ 2 * m) {η : ℝ} (hη : 0 < η) :
    ∫ s, nsq (move lr (X s) (G (om s) (X s)) (Z s) - mala l (√lr) (Y s) (Z s) (U s)) ∂W ≤
    (1 - m * lr / 4) * (∫ s, nsq (X s - Y s) ∂W) + 2 * lr * η * (∫ s, nsq (X0 s - Y0 s) ∂W) +
      2 * (lr * L ^ 2 * η⁻¹ * (∫ s, nsq (X s - X0 s) ∂W) + 2 * (∫ s, nsq (X s - Y s - (X0 s - Y0 s)) ∂W) +
        lr ^ 2 * (2 * (∫ ω, nsq (G ω 0) ∂P) + 5 * L ^ 2 * (∫ s, nsq (X s) ∂W) + L ^ 2 * (∫ y, nsq y ∂posterior l) +
          2 * nsq (pd l 0))) + (1 + 4 / (m * lr)) * rho l lr := by
  have _ := hB.prob
  have hm0 := hl.pos
  have hc : 0 < m * lr / 4 := by positivity
  have hY' : MemLp (fun s => mala l (√lr) (Y s) (Z s) (U s)) 2 W := hl.memLp_post.comp_measurePreserving (hB.next hl _)
  have i1 : Integrable (fun s => 2 * nsq (G (om s) 0) + 5 * L ^ 2 * nsq (X s) + L ^ 2 * nsq (Y s) + 2 * nsq (pd l 0)) W :=
    (((hB.g0_int.const_mul 2).add ((nsq_int hB.memX).const_mul _)).add ((nsq_int (hB.memY hl)).const_mul _)).add
      (integrable_const _)
  have i0 : Integrable (fun _ : S => (0 : ℝ)) W := integrable_zero _ _ _
  have iD := nsq_int (hB.memX.sub (hB.memY hl))
  have iD0 := nsq_int (hB.memX0.sub hB.memY0)
  have iX := nsq_int (hB.memX.sub hB.memX0)
  have iC := nsq_int ((hB.memX.sub (hB.memY hl)).sub (hB.memX0.sub hB.memY0))
  have icr := dot_int (hB.memX0.sub hB.memY0) ((hB.memG hB.memX0).sub (hl.grad_memLp hB.memX0))
  have iR := nsq_int (hB.mem_disp hl (√lr))
  simp only [Pi.sub_apply] at iD iD0 iX iC icr
  -- two groups of terms
  have iA : Integrable (fun s => (1 - m * lr / 4) * nsq (X s - Y s) + 2 * lr * η * nsq (X0 s - Y0 s) +
      2 * lr * L ^ 2 * η⁻¹ * nsq (X s - X0 s) + 4 * nsq (X s - Y s - (X0 s - Y0 s)) + 0 * (0 : ℝ)) W :=
    ((((iD.const_mul _).add (iD0.const_mul _)).add (iX.const_mul _)).add (iC.const_mul _)).add (i0.const_mul _)
  have kA := int_le5 (1 - m * lr / 4) (2 * lr * η) (2 * lr * L ^ 2 * η⁻¹) 4 0 iA iD iD0 iX iC i0 fun s => le_rfl
  have kB := int_le5 2 (5 * L ^ 2) (L ^ 2) (2 * nsq (pd l 0)) 0 i1 hB.g0_int (nsq_int hB.memX) (nsq_int (hB.memY hl))
    (integrable_const (1 : ℝ)) i0 fun s => by linarith
  have k := int_le5 1 ((1 + m * lr / 4) * lr) (2 * lr ^ 2) (1 + 4 / (m * lr)) 0
    (nsq_int ((hB.mem_move hl lr).sub hY')) iA icr i1 iR i0 (fun s => ?_)
  · rw [hB.disp_eq hl, hB.cross] at k
    rw [hB.g0_eq, hB.Y_eq hl] at kB
    simp only [integral_const, probReal_univ, smul_eq_mul, mul_one, mul_zero, zero_mul, add_zero, one_mul, Pi.sub_apply] at kA kB k
    have k3 := mul_le_mul_of_nonneg_left kB (by positivity : 0 ≤ 2 * lr ^ 2)
    linarith
  · simp only [Pi.sub_apply]
    set d := X s - Y s with hd
    set d0 := X0 s - Y0 s with hd0
    set r := disp l (√lr) (Y s) (Z s) (U s) with hr
    set A := d + (lr / 2) • (pd l (X s) - pd l (Y s)) with hA
    set ξ := (lr / 2) • (G (om s) (X s) - pd l (X s)) with hξ
    set ξ0 := (lr / 2) • (G (om s) (X0 s) - pd l (X0 s)) with hξ0
    have e1 : move lr (X s) (G (om s) (X s)) (Z s) - mala l (√lr) (Y s) (Z s) (U s) = (A + ξ) + -r := by
      rw [move_sub_mala h0.le, hA, hξ, ← hr, ← hd, smul_sub, smul_sub, smul_sub]
      abel
    have y1 := young hc (A + ξ) (-r)
    rw [nsq_neg] at y1
    have e2 : (m * lr / 4)⁻¹ = 4 / (m * lr) := by rw [inv_div]
    rw [e2] at y1
    -- the contraction
    have e3 : nsq A ≤ (1 - m * lr / 2) * nsq d := by
      rw [hA, nsq_add, dot_smul_right, nsq_smul, dot_comm]
      have c1 := hl.concave (X s) (Y s)
      have c2 := hl.lip (X s) (Y s)
      rw [← hd] at c1 c2
      have c3 := mul_le_mul_of_nonneg_left c1 h0.le
      have c4 := mul_le_mul_of_nonneg_left c2 (by positivity : 0 ≤ (lr / 2) ^ 2)
      have c5 := mul_le_mul_of_nonneg_right hL (mul_nonneg h0.le (nsq_nonneg d))
      nlinarith
    -- the noise
    have e4 : nsq ξ ≤ lr ^ 2 * (nsq (G (om s) 0) + 2 * L ^ 2 * nsq (X s) + nsq (pd l 0)) := by
      rw [hξ, nsq_smul]
      have c1 := nsq_sub_le (G (om s) (X s)) (pd l (X s))
      have c2 := hB.G_le (om s) (X s)
      have c3 := hl.grad_le (X s)
      have c4 : nsq (G (om s) (X s) - pd l (X s)) ≤ 4 * (nsq (G (om s) 0) + 2 * L ^ 2 * nsq (X s) + nsq (pd l 0)) := by linarith
      have c5 := mul_le_mul_of_nonneg_left c4 (by positivity : 0 ≤ (lr / 2) ^ 2)
      linarith
    -- the change of the noise
    have e5 : nsq (ξ - ξ0) ≤ lr ^ 2 * (L ^ 2 * nsq (X s - X0 s)) := by
      have c0 : ξ - ξ0 = (lr / 2) • ((G (om s) (X s) - G (om s) (X0 s)) - (pd l (X s) - pd l (X0 s))) := by
        rw [hξ, hξ0, ← smul_sub]
        congr 1
        abel
      rw [c0, nsq_smul]
      have c1 := nsq_sub_le (G (om s) (X s) - G (om s) (X0 s)) (pd l (X s) - pd l (X0 s))
      have c2 := hB.lip (om s) (X s) (X0 s)
      have c3 := hl.lip (X s) (X0 s)
      have c4 := mul_le_mul_of_nonneg_left (c1.trans (add_le_add (mul_le_mul_of_nonneg_left c2 zero_le_two)
        (mul_le_mul_of_nonneg_left c3 zero_le_two))) (by positivity : 0 ≤ (lr / 2) ^ 2)
      linarith
    -- the cross terms
    have e6 : 2 * dot A ξ = 2 * dot d0 ξ0 + 2 * dot d0 (ξ - ξ0) + 2 * dot (A - d0) ξ :=
      cross_split A d0 ξ ξ0
    have e7 : 2 * dot d0 (ξ - ξ0) ≤ lr * η * nsq d0 + lr * L ^ 2 * η⁻¹ * nsq (X s - X0 s) := by
      have c1 := two_dot_le (c := lr * η) (by positivity) d0 (ξ - ξ0)
      have c2 := mul_le_mul_of_nonneg_left e5 (by positivity : 0 ≤ (lr * η)⁻¹)
      have c3 : (lr * η)⁻¹ * (lr ^ 2 * (L ^ 2 * nsq (X s - X0 s))) = lr * L ^ 2 * η⁻¹ * nsq (X s - X0 s) := by
        field_simp
      linarith
    have e8 : 2 * dot (A - d0) ξ ≤ nsq (A - d0) + nsq ξ := by
      have := two_dot_le one_pos (A - d0) ξ
      simpa using this
    have e9 : nsq (A - d0) ≤ 2 * nsq (d - d0) + lr ^ 2 * (L ^ 2 * nsq (X s) + L ^ 2 * nsq (Y s)) := by
      have c0 : A - d0 = (d - d0) + (lr / 2) • (pd l (X s) - pd l (Y s)) := by rw [hA]; abel
      have c1 := nsq_add_le (d - d0) ((lr / 2) • (pd l (X s) - pd l (Y s)))
      rw [nsq_smul] at c1
      have c2 := hl.lip (X s) (Y s)
      have c3 := mul_le_mul_of_nonneg_left (nsq_sub_le (X s) (Y s)) (sq_nonneg L)
      have c4 := mul_le_mul_of_nonneg_left (c2.trans c3) (by positivity : 0 ≤ (lr / 2) ^ 2)
      rw [c0]
      linarith
    have e10 : 2 * dot d0 ξ0 = lr * dot d0 (G (om s) (X0 s) - pd l (X0 s)) := by
      rw [hξ0, dot_smul_right]
      ring
    -- everything together
    set c := m * lr / 4 with hcd
    set cr := dot d0 (G (om s) (X0 s) - pd l (X0 s)) with hcr
    set Bd := 2 * nsq (G (om s) 0) + 5 * L ^ 2 * nsq (X s) + L ^ 2 * nsq (Y s) + 2 * nsq (pd l 0) with hBd
    have nA : nsq (A + ξ) ≤ (1 - 2 * c) * nsq d + lr * cr + (lr * η * nsq d0 + lr * L ^ 2 * η⁻¹ * nsq (X s - X0 s) +
        2 * nsq (d - d0) + lr ^ 2 * Bd) := by
      rw [nsq_add, e6, e10]
      have q1 : (1 - m * lr / 2) * nsq d = (1 - 2 * c) * nsq d := by rw [hcd]; ring
      rw [q1] at e3
      rw [hBd]
      linarith
    have rest : 0 ≤ lr * η * nsq d0 + lr * L ^ 2 * η⁻¹ * nsq (X s - X0 s) + 2 * nsq (d - d0) + lr ^ 2 * Bd := by
      have p1 := nsq_nonneg d0
      have p2 := nsq_nonneg (X s - X0 s)
      have p3 := nsq_nonneg (d - d0)
      have p4 := nsq_nonneg (G (om s) 0)
      have p5 := nsq_nonneg (X s)
      have p6 := nsq_nonneg (Y s)
      have p7 := nsq_nonneg (pd l 0)
      positivity
    have c1 : c ≤ 1 := by rw [hcd]; linarith
    rw [e1]
    have f := combine hc.le c1 (nsq_nonneg d) rest nA y1
    linarith

end ZhuSuan.SgWeak.Before
