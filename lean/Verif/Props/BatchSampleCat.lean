import Verif.Props.BatchSampleMv

/-!
# C77, continued: Categorical, OnehotCategorical, Multinomial and Binomial
-/

set_option autoImplicit false

open MeasureTheory ProbabilityTheory Set
open scoped ENNReal

namespace ZhuSuan.Batch
open Shape LogExp Num
open Uni (Idx)

/-! ## Flat logits and the draws -/

theorem length_of_static {s : Static} {d : List ℕ} {r : ℕ} (h : Admits s d) (hr : s.map List.length = some r) :
    d.length = r := by
  cases s with
  | none => simp at hr
  | some l =>
    simp only [Option.map_some, Option.some.injEq] at hr
    exact (List.Forall₂.length_eq h).symm.trans hr

theorem ravel_one (d j : ℕ) : ravel [d] [j] = j := by simp [ravel]

theorem logitsFlat_spec {logits : STensor ℝ} (hlt : Admits logits.static logits.rt.shape) {B : List ℕ} {k : ℕ}
    (hs : logits.rt.shape = B ++ [k + 1]) :
    ∃ flat, logitsFlat logits = some flat ∧ flat.shape = [B.prod, k + 1] ∧
      ∀ b, InBounds b B → ∀ i, i < k + 1 → flat.val [ravel B b, i] = logits.rt.val (b ++ [i]) := by
  have ik : logits.rt.shape.getLast? = some (k + 1) := by rw [hs]; simp
  unfold logitsFlat
  simp only [ik, Option.bind_eq_bind, Option.bind_some]
  by_cases h2 : logits.static.map List.length = some 2
  · rw [if_pos h2]
    have hl := length_of_static hlt h2
    rw [hs] at hl
    obtain ⟨d, rfl⟩ : ∃ d, B = [d] := List.length_eq_one_iff.1 (by simpa using hl)
    refine ⟨_, rfl, by simp [hs], fun b hb i _ => ?_⟩
    cases hb with
    | cons h1 h => cases h; rw [ravel_one]; rfl
  · rw [if_neg h2]
    exact is_reshapeRows (⟨hs, fun _ _ => rfl⟩ : Is logits.rt (B ++ [k + 1]) logits.rt.val) (Nat.succ_ne_zero k)

/-- The table of draws. -/
theorem categoricalDraws_spec {flat : Tensor ℝ} {R k : ℕ} (hf : flat.shape = [R, k + 1]) (draw : ℕ → ℕ → ℤ) (m : ℕ) :
    ∃ t, categoricalDraws flat draw m = some t ∧ Is t [m, R] (fun idx => draw (idx.getD 1 0) (idx.getD 0 0)) := by
  unfold categoricalDraws
  rw [hf]
  exact ⟨_, rfl, rfl, fun _ _ => rfl⟩

theorem ravel_cons_ravel {n s : ℕ} {B b : List ℕ} : ravel (n :: B) (s :: b) = ravel [n, B.prod] [s, ravel B b] := by
  simp [ravel]

theorem inBounds_pair {n s : ℕ} {B b : List ℕ} (h1 : s < n) (h2 : InBounds b B) :
    InBounds [s, ravel B b] [n, B.prod] := .cons h1 (.cons (ravel_lt h2) .nil)

theorem unflatten_spec {logits : STensor ℝ} (hlt : Admits logits.static logits.rt.shape) {B : List ℕ} {k : ℕ}
    (hs : logits.rt.shape = B ++ [k + 1]) {flat : Tensor ℤ} {n : ℕ} {f : List ℕ → ℤ} (hf : Is flat [n, B.prod] f) :
    ∃ t, unflatten logits flat n = some t ∧ Is t (n :: B) (fun idx => f [idx.headD 0, ravel B idx.tail]) := by
  unfold unflatten
  by_cases h2 : logits.static.map List.length = some 2
  · rw [if_pos h2]
    have hl := length_of_static hlt h2
    rw [hs] at hl
    obtain ⟨d, rfl⟩ : ∃ d, B = [d] := List.length_eq_one_iff.1 (by simpa using hl)
    refine ⟨_, rfl, by simpa using hf.1, fun idx hi => ?_⟩
    rw [hf.2 idx (by simpa using hi)]
    cases hi with
    | cons h1 h =>
      cases h with
      | cons h3 h => cases h; simp [ravel]
  · rw [if_neg h2, hs, List.dropLast_concat]
    obtain ⟨r, e, ir⟩ := is_reshape hf (s := n :: B) (by simp)
    refine ⟨r, e, ir.1, fun idx hi => ?_⟩
    rw [ir.2 idx hi]
    cases hi with
    | cons h1 h =>
      show f (unravel _ (ravel (n :: B) (_ :: _))) = _
      rw [ravel_cons_ravel, unravel_ravel (inBounds_pair h1 h)]
      rfl

theorem categoricalRequest_spec {logits : STensor ℝ} (hlt : Admits logits.static logits.rt.shape) {B : List ℕ} {k : ℕ}
    (hs : logits.rt.shape = B ++ [k + 1]) (n : ℕ) :
    ∃ flat, categoricalRequest logits n = some (flat, n) ∧ flat.shape = [B.prod, k + 1] ∧
      ∀ b, InBounds b B → ∀ i, i < k + 1 → flat.val [ravel B b, i] = logits.rt.val (b ++ [i]) := by
  obtain ⟨flat, e, h⟩ := logitsFlat_spec hlt hs
  exact ⟨flat, by simp [categoricalRequest, e], h⟩

/-- The draws of every row, put back in the shape of the batch. -/
theorem categoricalSampleT_spec {logits : STensor ℝ} (hlt : Admits logits.static logits.rt.shape) {B : List ℕ} {k : ℕ}
    (hs : logits.rt.shape = B ++ [k + 1]) (draw : ℕ → ℕ → ℤ) (n : ℕ) :
    ∃ t, categoricalSampleT logits draw n = some t ∧ Is t (n :: B) (fun idx => draw (ravel B idx.tail) (idx.headD 0)) := by
  obtain ⟨flat, e1, hf, -⟩ := categoricalRequest_spec hlt hs n
  obtain ⟨d, e2, id⟩ := categoricalDraws_spec hf draw n
  obtain ⟨t, e3, it⟩ := unflatten_spec hlt hs id
  refine ⟨t, ?_, it⟩
  simp only [categoricalSampleT, e1, e2, e3, Option.bind_eq_bind, Option.bind_some]

theorem oneHotT_spec {t : Tensor ℤ} {S : List ℕ} {f : List ℕ → ℤ} (h : Is t S f) (k : ℕ) :
    Is (oneHotT t k) (S ++ [k]) (fun idx => if ((idx.getLastD 0 : ℕ) : ℤ) = f idx.dropLast then 1 else 0) := by
  refine ⟨by simp [oneHotT, h.1], fun idx hi => ?_⟩
  obtain ⟨j, i, rfl, hj, hi'⟩ := inBounds_snoc_elim hi
  simp only [oneHotT, List.dropLast_concat, h.2 j hj]

theorem onehotSampleT_spec {logits : STensor ℝ} (hlt : Admits logits.static logits.rt.shape) {B : List ℕ} {k : ℕ}
    (hs : logits.rt.shape = B ++ [k + 1]) (draw : ℕ → ℕ → ℤ) (n : ℕ) :
    ∃ t, onehotSampleT logits draw n = some t ∧ t.shape = (n :: B) ++ [k + 1] ∧
      ∀ b, InBounds b (n :: B) → ∀ i : Fin (k + 1), t.val (b ++ [i.val]) =
        if (i.val : ℤ) = draw (ravel B b.tail) (b.headD 0) then 1 else 0 := by
  have ik : logits.rt.shape.getLast? = some (k + 1) := by rw [hs]; simp
  obtain ⟨flat, e1, hf, -⟩ := categoricalRequest_spec hlt hs n
  obtain ⟨d, e2, id⟩ := categoricalDraws_spec hf draw n
  obtain ⟨t, e3, it⟩ := unflatten_spec hlt hs id
  have io := oneHotT_spec it (k + 1)
  refine ⟨oneHotT t (k + 1), ?_, io.1, fun b hb i => ?_⟩
  · simp only [onehotSampleT, ik, e1, e2, e3, Option.bind_eq_bind, Option.bind_some]; rfl
  · rw [io.2 _ (inBounds_snoc hb i.isLt)]
    simp only [List.dropLast_concat, List.getLastD_concat, List.getD_cons_zero, List.getD_cons_succ]

/-! ## The layout of the draws -/

/-- Row-major positions. -/
def ravelEquiv (B : List ℕ) : Idx B ≃ Fin B.prod where
  toFun b := ⟨ravel B b.1, ravel_lt (mem_allIndices.1 b.2)⟩
  invFun p := ⟨unravel B p.val, mem_allIndices.2 (inBounds_unravel p.isLt)⟩
  left_inv b := Subtype.ext (unravel_ravel (mem_allIndices.1 b.2))
  right_inv p := Fin.ext (ravel_unravel p.isLt)

/-- The first axis. -/
def headEquiv (N : ℕ) (B : List ℕ) : Idx (N :: B) ≃ Fin N × Idx B where
  toFun b := (⟨b.1.headD 0, by
      obtain ⟨b, hb⟩ := b
      cases mem_allIndices.1 hb with
      | cons h1 _ => exact h1⟩, ⟨b.1.tail, by
      obtain ⟨b, hb⟩ := b
      cases mem_allIndices.1 hb with
      | cons _ h => exact mem_allIndices.2 h⟩)
  invFun q := ⟨q.1.val :: q.2.1, mem_allIndices.2 (.cons q.1.isLt (mem_allIndices.1 q.2.2))⟩
  left_inv b := by
    obtain ⟨b, hb⟩ := b
    cases mem_allIndices.1 hb with
    | cons _ h => rfl
  right_inv q := rfl

/-- The sample, the entry of the batch and the experiment as row and column in the table of draws. -/
noncomputable def tableEquiv (ns : Option ℕ) (B : List ℕ) {J : Type} {M : ℕ} (c : Fin (ns.getD 1) × J ≃ Fin M) :
    Idx (sampleShape ns B) × J ≃ Fin B.prod × Fin M :=
  ((((leadEquiv ns B).trans (headEquiv _ B)).trans (Equiv.prodComm _ _)).prodCongr (Equiv.refl _)).trans
    ((Equiv.prodAssoc _ _ _).trans ((ravelEquiv B).prodCongr c))

/-- The number of the sample. -/
def headFin (ns : Option ℕ) {B : List ℕ} (i : Idx (sampleShape ns B)) : Fin (ns.getD 1) :=
  ⟨(leadIdx ns i.1).headD 0, by
    have h := leadIdx_inBounds (mem_allIndices.1 i.2)
    generalize leadIdx ns i.1 = l at h
    cases h with
    | cons h _ => exact h⟩

theorem drawOf_table {J : Type} {k M : ℕ} (ns : Option ℕ) (B : List ℕ) (c : Fin (ns.getD 1) × J ≃ Fin M)
    (w : Fin B.prod × Fin M → Fin (k + 1)) (i : Idx (sampleShape ns B)) (e : J) :
    drawOf w (ravel B (leadIdx ns i.1).tail) (c (headFin ns i, e)).val = ((w (tableEquiv ns B c (i, e))).val : ℤ) := by
  unfold drawOf
  rw [dif_pos ⟨ravel_lt (batchIdx_inBounds (mem_allIndices.1 i.2)), (c (headFin ns i, e)).isLt⟩]
  rfl

/-- The law of a draw. -/
theorem law_table {J : Type} {k M : ℕ} (ns : Option ℕ) (B : List ℕ) (c : Fin (ns.getD 1) × J ≃ Fin M) (flat : Tensor ℝ)
    (val : List ℕ → ℝ)
    (hf : ∀ b, InBounds b B → ∀ i, i < k + 1 → flat.val [ravel B b, i] = val (b ++ [i]))
    (i : Idx (sampleShape ns B)) (e : J) :
    (categoricalLaw fun q : Fin (k + 1) => flat.val [(tableEquiv ns B c (i, e)).1.val, q.val]) =
      categoricalLaw fun q : Fin (k + 1) => val (batchIdx ns i.1 ++ [q.val]) :=
  congrArg _ (funext fun q => hf _ (batchIdx_inBounds (mem_allIndices.1 i.2)) q.val q.isLt)

/-! ## The distributions -/

theorem scalars_sampleArg {α : Type} [Zero α] {f : ℕ → Option (Tensor α)} {ns : Option ℕ} {B : List ℕ} {t : Tensor α}
    {val : List ℕ → α} (h : f (ns.getD 1) = some t) (hv : Is t (ns.getD 1 :: B) val) :
    (∃ t', sampleArg f ns = some t' ∧ t'.shape = sampleShape ns B) ∧
    ∀ i : Idx (sampleShape ns B), scalarsOf _ (sampleArg f ns) i = val (leadIdx ns i.1) := by
  obtain ⟨t', h1, h2⟩ := is_sampleArg h hv
  refine ⟨⟨t', h1, h2.1⟩, fun i => ?_⟩
  rw [h1]
  exact h2.2 _ (mem_allIndices.1 i.2)

theorem isBroadcast_batch (ns : Option ℕ) (B : List ℕ) : IsBroadcast (sampleShape ns B) B (sampleShape ns B) :=
  ⟨expands_refl _, expands_sampleShape ns B, fun _ h _ => h⟩

attribute [local irreducible] categoricalLogProb onehotLogProb multinomialLogProb

/-- Categorical. -/
theorem C77_categorical (logits : STensor ℝ) (hlt : Admits logits.static logits.rt.shape) (B : List ℕ) (k : ℕ)
    (hs : logits.rt.shape = B ++ [k + 1]) (ns : Option ℕ) (gs : Static) (hgs : Admits gs (sampleShape ns B)) :
    ∃ flat, categoricalRequest logits (ns.getD 1) = some (flat, ns.getD 1) ∧ flat.shape = [B.prod, k + 1] ∧
    (∀ draw, ∃ t, sampleArg (categoricalSampleT logits draw) ns = some t ∧ t.shape = sampleShape ns B) ∧
    Agree (sampleShape ns B) (catNoise flat B.prod k (ns.getD 1))
      (fun w => scalarsOf _ (sampleArg (categoricalSampleT logits (drawOf w)) ns))
      (∑ c : Fin (k + 1), Measure.dirac ((c.val : ℕ) : ℤ)) {x | 0 ≤ x ∧ x < (k + 1 : ℕ)}
      (fun x g => toE (grouped (categoricalLogProbT ⟨gs, scalarsT _ x⟩ logits) g)) := by
  obtain ⟨flat, e1, hf, hv⟩ := categoricalRequest_spec hlt hs (ns.getD 1)
  have hsp := fun draw => categoricalSampleT_spec hlt hs draw (ns.getD 1)
  refine ⟨flat, e1, hf, fun draw => ?_, ?_⟩
  · obtain ⟨t, h1, h2⟩ := hsp draw
    exact (scalars_sampleArg h1 h2).1
  let c : Fin (ns.getD 1) × Unit ≃ Fin (ns.getD 1) := Equiv.prodPUnit _
  refine agree_layout (tableEquiv ns B c) _ (fun i => inferInstance) (fun _ d => ((d ()).val : ℤ))
    (fun _ => measurable_of_countable _) _ (fun w i => ?_) _ _ ?_
    (fun i x => ENNReal.ofReal (Real.exp (categoricalLogProb
      (fun q : Fin (k + 1) => logits.rt.val (batchIdx ns i.1 ++ [q.val])) (Fin.ofNat (k + 1) x.toNat))))
    (fun i => aemeasurable_diracs _ _) (fun i => ?_) _ (agree_lp (dens := fun i (x : ℤ) => categoricalLogProb
      (fun q : Fin (k + 1) => logits.rt.val (batchIdx ns i.1 ++ [q.val])) (Fin.ofNat (k + 1) x.toNat)) fun x hx => ?_)
  · obtain ⟨t, h1, h2⟩ := hsp (drawOf w)
    rw [(scalars_sampleArg h1 h2).2 i]
    exact drawOf_table ns B c w i ()
  · rw [Measure.finsetSum_apply, Finset.sum_eq_zero]
    intro q _
    rw [Measure.dirac_apply, indicator_of_notMem]
    simp only [mem_compl_iff, mem_ofPred_eq, not_not]
    exact ⟨by omega, by exact_mod_cast q.isLt⟩
  · simp only [law_table ns B c flat _ hv]
    exact categorical_law _
  · obtain ⟨r, h1, h2, h3⟩ := C76_categorical ⟨gs, scalarsT _ x⟩ logits hgs hlt B (sampleShape ns B) k hs
      (isBroadcast_batch ns B) (fun idx hi => by
        have := hx ⟨idx, mem_allIndices.2 hi⟩
        rwa [← scalarsT_val x] at this)
    refine ⟨r, h1, h2, fun i => h3 i.1 (mem_allIndices.1 i.2) _ _ (rowAt_param hs (mem_allIndices.1 i.2))
      ⟨i.1, comesFrom_self (mem_allIndices.1 i.2), ?_⟩⟩
    rw [scalarsT_val]
    obtain ⟨ha, hb⟩ := hx i
    have hlt : (x i).toNat < k + 1 := by omega
    simp only [Fin.val_ofNat, Nat.mod_eq_of_lt hlt]
    omega

/-- OnehotCategorical. -/
theorem C77_onehot (logits : STensor ℝ) (hlt : Admits logits.static logits.rt.shape) (B : List ℕ) (k : ℕ)
    (hs : logits.rt.shape = B ++ [k + 1]) (ns : Option ℕ) (gs : Static)
    (hgs : Admits gs (sampleShape ns B ++ [k + 1])) :
    ∃ flat, categoricalRequest logits (ns.getD 1) = some (flat, ns.getD 1) ∧ flat.shape = [B.prod, k + 1] ∧
    (∀ draw, ∃ t, sampleArg (onehotSampleT logits draw) ns = some t ∧ t.shape = sampleShape ns B ++ [k + 1]) ∧
    Agree (sampleShape ns B) (catNoise flat B.prod k (ns.getD 1))
      (fun w => rowsOf _ (k + 1) (sampleArg (onehotSampleT logits (drawOf w)) ns))
      (∑ c : Fin (k + 1), Measure.dirac fun i => if i = c then 1 else 0) univ
      (fun x g => toE (grouped (onehotLogProbT logits ⟨gs, rowsT _ x⟩) g)) := by
  obtain ⟨flat, e1, hf, hv⟩ := categoricalRequest_spec hlt hs (ns.getD 1)
  have hsp := fun draw => onehotSampleT_spec hlt hs draw (ns.getD 1)
  refine ⟨flat, e1, hf, fun draw => ?_, ?_⟩
  · obtain ⟨t, h1, h2, h3⟩ := hsp draw
    exact (rows_sampleArg h1 h2 h3).1
  let c : Fin (ns.getD 1) × Unit ≃ Fin (ns.getD 1) := Equiv.prodPUnit _
  refine agree_layout (tableEquiv ns B c) _ (fun i => inferInstance) (fun _ d => oneHot (d ()))
    (fun _ => measurable_of_countable _) _ (fun w i => ?_) _ _ (by simp)
    (fun i x => ENNReal.ofReal (Real.exp (onehotLogProb
      (fun q : Fin (k + 1) => logits.rt.val (batchIdx ns i.1 ++ [q.val])) x)))
    (fun i => aemeasurable_diracs _ _) (fun i => ?_) _ (agree_lp fun x _ => ?_)
  · obtain ⟨t, h1, h2, h3⟩ := hsp (drawOf w)
    rw [(rows_sampleArg h1 h2 h3).2 i]
    funext q
    rw [show drawOf w (ravel B (leadIdx ns i.1).tail) ((leadIdx ns i.1).headD 0) = _ from drawOf_table ns B c w i ()]
    simp only [oneHot, Fin.ext_iff, Nat.cast_inj]
  · simp only [law_table ns B c flat _ hv]
    exact onehot_law _
  · obtain ⟨r, h1, h2, h3⟩ := C76_onehot logits ⟨gs, rowsT _ x⟩ hlt hgs B (sampleShape ns B) k hs
      (by rw [hs]; exact isBroadcast_sampleShape ns B [k + 1])
    exact ⟨r, h1, h2, fun i => h3 i.1 (mem_allIndices.1 i.2) _ _ (rowAt_param hs (mem_allIndices.1 i.2))
      (rowAt_rowsT x i)⟩

/-! ## Multinomial -/

theorem multinomialRequest_spec (m : ℕ) {logits : STensor ℝ} (hlt : Admits logits.static logits.rt.shape) {B : List ℕ}
    {k : ℕ} (hs : logits.rt.shape = B ++ [k + 1]) (n : ℕ) :
    ∃ flat, multinomialRequest m logits n = some (flat, n * m) ∧ flat.shape = [B.prod, k + 1] ∧
      ∀ b, InBounds b B → ∀ i, i < k + 1 → flat.val [ravel B b, i] = logits.rt.val (b ++ [i]) := by
  obtain ⟨flat, e, h⟩ := logitsFlat_spec hlt hs
  exact ⟨flat, by simp [multinomialRequest, e], h⟩

/-- A table of draws with the columns split. -/
theorem reshape_table {α : Type} {t : Tensor α} {p q : ℕ} {M : ℕ} (B : List ℕ) {f : List ℕ → α} (hf : Is t [M, B.prod] f)
    (hM : p * q = M) :
    ∃ r, reshape t (p :: q :: B) = some r ∧ r.shape = p :: q :: B ∧
      ∀ a, a < p → ∀ e, e < q → ∀ b, InBounds b B → r.val (a :: e :: b) = f [a * q + e, ravel B b] := by
  subst hM
  obtain ⟨r, e1, ir⟩ := is_reshape hf (s := p :: q :: B) (by simp [mul_assoc])
  refine ⟨r, e1, ir.1, fun a ha e he b hb => ?_⟩
  rw [ir.2 _ (.cons ha (.cons he hb))]
  have h : ravel (p :: q :: B) (a :: e :: b) = ravel [p * q, B.prod] [a * q + e, ravel B b] := by
    simp only [ravel, List.prod_cons, List.prod_nil]
    ring
  have hlt : a * q + e < p * q := by
    calc a * q + e < a * q + q := by omega
      _ = (a + 1) * q := by ring
      _ ≤ p * q := Nat.mul_le_mul_right q ha
  show f (unravel _ (ravel (p :: q :: B) (a :: e :: b))) = _
  rw [h, unravel_ravel (.cons hlt (.cons (ravel_lt hb) .nil))]

theorem multinomialSampleT_spec (m : ℕ) {logits : STensor ℝ} (hlt : Admits logits.static logits.rt.shape) {B : List ℕ}
    {k : ℕ} (hs : logits.rt.shape = B ++ [k + 1]) (draw : ℕ → ℕ → ℤ) (n : ℕ) :
    ∃ t, multinomialSampleT (some m) logits draw n = some t ∧ t.shape = (n :: B) ++ [k + 1] ∧
      ∀ b, InBounds b (n :: B) → ∀ i : Fin (k + 1), t.val (b ++ [i.val]) =
        ∑ e : Fin m, if (i.val : ℤ) = draw (ravel B b.tail) (b.headD 0 * m + e.val) then 1 else 0 := by
  have ik : logits.rt.shape.getLast? = some (k + 1) := by rw [hs]; simp
  obtain ⟨flat, e1, hf, -⟩ := multinomialRequest_spec m hlt hs n
  obtain ⟨d, e2, id⟩ := categoricalDraws_spec hf draw (n * m)
  obtain ⟨r, e3, hr, hrv⟩ := reshape_table (p := n) (q := m) B id rfl
  have io := oneHotT_spec (⟨hr, fun _ _ => rfl⟩ : Is r (n :: m :: B) r.val) (k + 1)
  have h1 : (oneHotT r (k + 1)).shape[1]? = some m := by rw [io.1]; rfl
  refine ⟨⟨(oneHotT r (k + 1)).shape.eraseIdx 1, fun idx => ∑ e : Fin m,
    (oneHotT r (k + 1)).val (idx.take 1 ++ e.val :: idx.drop 1)⟩, ?_, ?_, fun b hb i => ?_⟩
  · have hd : logits.rt.shape.dropLast = B := by rw [hs, List.dropLast_concat]
    simp only [multinomialSampleT, ik, e1, e2, hd, e3, Option.bind_eq_bind, Option.bind_some, sumAxis, h1,
      Option.map_some]
  · show (oneHotT r (k + 1)).shape.eraseIdx 1 = _
    rw [io.1]; rfl
  · cases hb with
    | @cons s _ b _ h1 h2 =>
      show (∑ e : Fin m, (oneHotT r (k + 1)).val ((s :: e.val :: b) ++ [i.val])) = _
      refine Finset.sum_congr rfl fun e _ => ?_
      rw [io.2 _ (inBounds_snoc (.cons h1 (.cons e.isLt h2)) i.isLt)]
      simp only [List.dropLast_concat, List.getLastD_concat, hrv s h1 e.val e.isLt b h2]
      rfl

/-- The column of an experiment of a sample. -/
def colMultinomial (N m : ℕ) : Fin N × Fin m ≃ Fin (N * m) := finProdFinEquiv

theorem colMultinomial_val {N m : ℕ} (s : Fin N) (e : Fin m) : (colMultinomial N m (s, e)).val = s.val * m + e.val := by
  simp only [colMultinomial, finProdFinEquiv_apply_val]
  ring

/-- Multinomial.  Without `normalize_logits` the logits must be logarithms of probabilities. -/
theorem C77_multinomial (normalize : Bool) (m : ℕ) (logits : STensor ℝ) (hlt : Admits logits.static logits.rt.shape)
    (B : List ℕ) (k : ℕ) (hs : logits.rt.shape = B ++ [k + 1])
    (hn : normalize = true ∨ ∀ b, InBounds b B → ∑ i : Fin (k + 1), Real.exp (logits.rt.val (b ++ [i.val])) = 1)
    (ns : Option ℕ) (gs : Static) (hgs : Admits gs (sampleShape ns B ++ [k + 1])) :
    ∃ flat, multinomialRequest m logits (ns.getD 1) = some (flat, ns.getD 1 * m) ∧ flat.shape = [B.prod, k + 1] ∧
    (∀ draw, ∃ t, sampleArg (multinomialSampleT (some m) logits draw) ns = some t ∧
      t.shape = sampleShape ns B ++ [k + 1]) ∧
    Agree (sampleShape ns B) (catNoise flat B.prod k (ns.getD 1 * m))
      (fun w => rowsOf _ (k + 1) (sampleArg (multinomialSampleT (some m) logits (drawOf w)) ns))
      (countMeasure k m) univ
      (fun x g => toE (grouped (multinomialLogProbT normalize (some m) logits ⟨gs, rowsT _ x⟩) g)) := by
  obtain ⟨flat, e1, hf, hv⟩ := multinomialRequest_spec m hlt hs (ns.getD 1)
  have hsp := fun draw => multinomialSampleT_spec m hlt hs draw (ns.getD 1)
  refine ⟨flat, e1, hf, fun draw => ?_, ?_⟩
  · obtain ⟨t, h1, h2, h3⟩ := hsp draw
    exact (rows_sampleArg h1 h2 h3).1
  let c := colMultinomial (ns.getD 1) m
  have hP : ∀ i : Idx (sampleShape ns B), Proper normalize
      (fun q : Fin (k + 1) => logits.rt.val (batchIdx ns i.1 ++ [q.val])) := fun i =>
    hn.imp id fun h => h _ (batchIdx_inBounds (mem_allIndices.1 i.2))
  refine agree_layout (tableEquiv ns B c) _ (fun i => inferInstance) (fun _ d => multinomialCount d)
    (fun _ => measurable_of_countable _) _ (fun w i => ?_) (countMeasure k m) _ (by simp)
    (fun i x => ENNReal.ofReal (Real.exp (multinomialLogProb normalize (some m)
      (fun q : Fin (k + 1) => logits.rt.val (batchIdx ns i.1 ++ [q.val])) x)))
    (fun i => aemeasurable_diracs _ _) (fun i => ?_) _ (agree_lp fun x _ => ?_)
  · obtain ⟨t, h1, h2, h3⟩ := hsp (drawOf w)
    rw [(rows_sampleArg h1 h2 h3).2 i]
    funext q
    refine Finset.sum_congr rfl fun e _ => ?_
    have := drawOf_table ns B c w i e
    rw [colMultinomial_val] at this
    rw [show drawOf w (ravel B (leadIdx ns i.1).tail) ((leadIdx ns i.1).headD 0 * m + e.val) = _ from this]
    simp only [oneHot, Fin.ext_iff, Nat.cast_inj]
  · simp only [law_table ns B c flat _ hv]
    exact multinomial_law (hP i) m
  · obtain ⟨r, h1, h2, h3⟩ := C76_multinomial normalize (some m) logits ⟨gs, rowsT _ x⟩ hlt hgs (sampleShape ns B) k
      (by rw [hs]; exact isBroadcast_sampleShape ns B [k + 1])
    exact ⟨r, h1, h2, fun i => h3 i.1 (mem_allIndices.1 i.2) _ _ (rowAt_param hs (mem_allIndices.1 i.2))
      (rowAt_rowsT x i)⟩

/-! ## Binomial -/

theorem binomialRequest_spec (m : ℕ) {logits : STensor ℝ} (hlt : Admits logits.static logits.rt.shape) (n : ℕ) :
    ∃ flat, binomialRequest m logits n = some (flat, n * m) ∧ flat.shape = [logits.rt.shape.prod, 2] ∧
      ∀ b, InBounds b logits.rt.shape → ∀ q : Fin 2, flat.val [ravel logits.rt.shape b, q.val] =
        stacked (logits.rt.val b) q := by
  have key : ∃ fl : Tensor ℝ, (if logits.static.map List.length = some 1 then some logits.rt
      else reshape logits.rt [logits.rt.shape.prod]) = some fl ∧ fl.shape = [logits.rt.shape.prod] ∧
      ∀ b, InBounds b logits.rt.shape → fl.val [ravel logits.rt.shape b] = logits.rt.val b := by
    by_cases h1 : logits.static.map List.length = some 1
    · rw [if_pos h1]
      obtain ⟨d, hd⟩ : ∃ d, logits.rt.shape = [d] := List.length_eq_one_iff.1 (length_of_static hlt h1)
      refine ⟨_, rfl, by simp [hd], fun b hb => ?_⟩
      rw [hd] at hb ⊢
      cases hb with
      | cons _ h => cases h; rw [ravel_one]
    · rw [if_neg h1]
      obtain ⟨r, e, ir⟩ := is_reshape (⟨rfl, fun _ _ => rfl⟩ : Is logits.rt logits.rt.shape logits.rt.val)
        (s := [logits.rt.shape.prod]) (by simp)
      refine ⟨r, e, ir.1, fun b hb => ?_⟩
      rw [ir.2 _ (.cons (ravel_lt hb) .nil)]
      show logits.rt.val (unravel _ (ravel [_] [_])) = _
      rw [ravel_one, unravel_ravel hb]
  obtain ⟨fl, e, hs, hv⟩ := key
  refine ⟨⟨fl.shape ++ [2], fun idx => if idx.getLastD 0 = 0 then (Uni.Binomial.stackedLogits (fl.val idx.dropLast)).1
    else (Uni.Binomial.stackedLogits (fl.val idx.dropLast)).2⟩, ?_, by simp [hs], fun b hb q => ?_⟩
  · unfold binomialRequest
    by_cases h1 : logits.static.map List.length = some 1
    · rw [if_pos h1] at e ⊢
      cases e
      rfl
    · rw [if_neg h1] at e ⊢
      rw [e]
      rfl
  have h := hv b hb
  simp only [stacked, ← h]
  rfl

theorem binomialSampleT_spec (m : ℕ) {logits : STensor ℝ} (hlt : Admits logits.static logits.rt.shape)
    (draw : ℕ → ℕ → ℤ) (n : ℕ) :
    ∃ t, binomialSampleT m logits draw n = some t ∧ Is t (n :: logits.rt.shape) (fun idx =>
      ((∑ e : Fin m, draw (ravel logits.rt.shape idx.tail) (e.val * n + idx.headD 0) : ℤ) : ℝ)) := by
  obtain ⟨flat, e1, hf, -⟩ := binomialRequest_spec m hlt n
  obtain ⟨d, e2, id⟩ := categoricalDraws_spec (k := 1) hf draw (n * m)
  obtain ⟨r, e3, hr, hrv⟩ := reshape_table (p := m) (q := n) logits.rt.shape id (Nat.mul_comm m n)
  have h1 : r.shape[0]? = some m := by rw [hr]; rfl
  refine ⟨⟨r.shape.eraseIdx 0, fun idx => ((∑ e : Fin m, r.val (idx.take 0 ++ e.val :: idx.drop 0) : ℤ) : ℝ)⟩, ?_, ?_,
    fun idx hi => ?_⟩
  · simp only [binomialSampleT, e1, e2, e3, Option.bind_eq_bind, Option.bind_some, sumAxis, h1, Option.map_some]
    rfl
  · show r.shape.eraseIdx 0 = _
    rw [hr]; rfl
  · cases hi with
    | @cons s _ b _ h1 h2 =>
      show ((∑ e : Fin m, r.val (e.val :: s :: b) : ℤ) : ℝ) = _
      refine congrArg _ (Finset.sum_congr rfl fun e _ => ?_)
      exact hrv e.val e.isLt s h1 b h2

/-- The column of an experiment of a sample. -/
def colBinomial (N m : ℕ) : Fin N × Fin m ≃ Fin (N * m) :=
  (Equiv.prodComm _ _).trans (finProdFinEquiv.trans (finCongr (Nat.mul_comm m N)))

theorem colBinomial_val {N m : ℕ} (s : Fin N) (e : Fin m) : (colBinomial N m (s, e)).val = e.val * N + s.val := by
  simp only [colBinomial, Equiv.trans_apply, Equiv.prodComm_apply, Prod.swap_prod_mk, finCongr_apply_coe,
    finProdFinEquiv_apply_val]
  ring

/-- Binomial. -/
theorem C77_binomial (m : ℕ) (logits : STensor ℝ) (hlt : Admits logits.static logits.rt.shape) (ns : Option ℕ) :
    ∃ flat, binomialRequest m logits (ns.getD 1) = some (flat, ns.getD 1 * m) ∧
      flat.shape = [logits.rt.shape.prod, 2] ∧
    (∀ draw, ∃ t, sampleArg (binomialSampleT m logits draw) ns = some t ∧ t.shape = sampleShape ns logits.rt.shape) ∧
    Agree (sampleShape ns logits.rt.shape) (catNoise flat logits.rt.shape.prod 1 (ns.getD 1 * m))
      (fun w => scalarsOf _ (sampleArg (binomialSampleT m logits (drawOf w)) ns))
      (∑ c : Fin (m + 1), Measure.dirac ((c.val : ℕ) : ℝ)) univ
      (fun x g => (Uni.UDist.binomial logits.rt m).logProb (scalarsT _ x) g) := by
  obtain ⟨flat, e1, hf, hv⟩ := binomialRequest_spec m hlt (ns.getD 1)
  have hsp := fun draw => binomialSampleT_spec m hlt draw (ns.getD 1)
  refine ⟨flat, e1, hf, fun draw => ?_, ?_⟩
  · obtain ⟨t, h1, h2⟩ := hsp draw
    exact (scalars_sampleArg h1 h2).1
  let B := logits.rt.shape
  let c := colBinomial (ns.getD 1) m
  refine agree_layout (tableEquiv ns B c) _ (fun i => inferInstance)
    (fun _ d => ((∑ e, ((d e).val : ℤ) : ℤ) : ℝ))
    (fun _ => measurable_of_countable _) _ (fun w i => ?_) _ _ (by simp)
    (fun i x => ENNReal.ofReal (Real.exp (Uni.Binomial.logProb m (logits.rt.val (batchIdx ns i.1)) x)))
    (fun i => aemeasurable_diracs _ _) (fun i => ?_) _ (fun x _ => ?_)
  · obtain ⟨t, h1, h2⟩ := hsp (drawOf w)
    rw [(scalars_sampleArg h1 h2).2 i]
    refine congrArg _ (Finset.sum_congr rfl fun e _ => ?_)
    have := drawOf_table ns B c w i e
    rwa [colBinomial_val] at this
  · have hl : ∀ e, (categoricalLaw fun q : Fin (1 + 1) => flat.val [(tableEquiv ns B c (i, e)).1.val, q.val]) =
        categoricalLaw (n := 1) (stacked (logits.rt.val (batchIdx ns i.1))) := fun e =>
      congrArg _ (funext fun q => hv _ (batchIdx_inBounds (mem_allIndices.1 i.2)) q)
    simp only [hl]
    exact binomial_law _ m
  · obtain ⟨t, h1, h2, h3⟩ := Uni.UDist.eval_logProbE (Uni.UDist.binomial logits.rt m) (scalarsT _ x) B
      (sampleShape ns B) rfl (isBroadcast_batch ns B)
    refine ⟨t, h2, fun i => ?_, fun g => ?_⟩
    · rw [h3 _ (mem_allIndices.1 i.2)]
      show EReal.exp ((Uni.Binomial.logProb m (logits.rt.val (projIdx logits.rt.shape i.1))
        ((scalarsT _ x).val (projIdx (sampleShape ns B) i.1)) : ℝ) : EReal) = _
      rw [projIdx_batchIdx (mem_allIndices.1 i.2), projIdx_self (mem_allIndices.1 i.2), scalarsT_val, EReal.exp_coe]
    · unfold Uni.UDist.logProb; rw [h1]; rfl

/-! ## Cases that meet the hypotheses -/

/-- Four draws from a batch of shape `[2, 3]` with five classes, the shape unknown while the graph is built. -/
example (v : List ℕ → ℝ) (draw : ℕ → ℕ → ℤ) :
    ∃ t, sampleArg (categoricalSampleT ⟨none, ⟨[2, 3, 5], v⟩⟩ draw) (some 4) = some t ∧ t.shape = [4, 2, 3] := by
  obtain ⟨_, -, -, h, -⟩ := C77_categorical ⟨none, ⟨[2, 3, 5], v⟩⟩ trivial [2, 3] 4 rfl (some 4) none trivial
  exact h draw

/-- Seven experiments, with logits that are logarithms of probabilities. -/
example : ∃ flat, multinomialRequest 7 ⟨none, ⟨[2, 2], fun _ => Real.log (1 / 2)⟩⟩ 1 = some (flat, 1 * 7) := by
  obtain ⟨flat, h, -⟩ := C77_multinomial false 7 ⟨none, ⟨[2, 2], fun _ => Real.log (1 / 2)⟩⟩ trivial [2] 1 rfl
    (.inr fun b _ => by simp [Real.exp_neg, Real.exp_log]) none none trivial
  exact ⟨flat, h⟩

end ZhuSuan.Batch
