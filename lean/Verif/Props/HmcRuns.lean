import Verif.Spec.HmcConv
import Verif.Lemmas.HmcReversible
import Verif.Props.Hmc

/-!
# C52  Many iterations of HMC, and reversibility
-/

set_option autoImplicit false

open MeasureTheory Set ProbabilityTheory
open scoped ENNReal

namespace ZhuSuan.Hmc

variable {C ι : Type} [Fintype C] [Fintype ι]

theorem measurable_transition (n : ℕ) (mass : ι → ℝ) (eps : ℝ) (l : C → (ι → ℝ) → ℝ)
    (hl : ∀ c, Measurable (l c)) (g : C → (ι → ℝ) → ι → ℝ) (hg : ∀ c, Measurable (g c)) :
    Measurable fun w : (C → ι → ℝ) × (C → ι → ℝ) × (C → ℝ) =>
      (transition n (fun q c => l c (q c)) (fun q c => g c (q c)) mass eps w.1
        (randomMomentum w.2.1 mass) w.2.2).newQ := by
  refine measurable_pi_lambda _ fun c => ?_
  simp only [transition_chain]
  have mz : Measurable fun w : (ι → ℝ) × (ι → ℝ) × ℝ =>
      (w.1, (fun i => w.2.1 i * Real.sqrt (mass i) : ι → ℝ), w.2.2) := by fun_prop
  have h := (measurable_chainStep mass (g c) (l c) n eps (hg c) (hl c)).comp mz
  have hc : Measurable fun w : (C → ι → ℝ) × (C → ι → ℝ) × (C → ℝ) => (w.1 c, w.2.1 c, w.2.2 c) :=
    ((measurable_pi_apply c).comp measurable_fst).prodMk
      (((measurable_pi_apply c).comp (measurable_fst.comp measurable_snd)).prodMk
        ((measurable_pi_apply c).comp (measurable_snd.comp measurable_snd)))
  exact h.comp hc

omit [Fintype C] [Fintype ι] in
theorem ok_exists (s s' : State ℝ C ι) (info : Info ℝ C ι) (h : s = s') :
    ∃ info', Outcome.ok s info = .ok s' info' := ⟨info, by rw [h]⟩

/-- **C52.** The transition of HMC is reversible: with the chains at the start distributed with densities
`exp (l c)`, the pair of the positions before and after the transition has the same distribution as the
reversed pair. -/
theorem C52_reversible (n : ℕ) (mass : ι → ℝ) (hm : ∀ i, 0 < mass i) (eps : ℝ) (l : C → (ι → ℝ) → ℝ)
    (hl : ∀ c, Measurable (l c)) (g : C → (ι → ℝ) → ι → ℝ) (hg : ∀ c, Measurable (g c)) :
    let target : Measure (C → ι → ℝ) :=
      Measure.pi fun c => volume.withDensity fun q => ENNReal.ofReal (Real.exp (l c q))
    let normals : Measure (C → ι → ℝ) := Measure.pi fun _ => Measure.pi fun _ => gaussianReal 0 1
    let uniforms : Measure (C → ℝ) := Measure.pi fun _ => volume.restrict (Ico 0 1)
    let next : (C → ι → ℝ) × (C → ι → ℝ) × (C → ℝ) → C → ι → ℝ := fun w =>
      (transition n (fun q c => l c (q c)) (fun q c => g c (q c)) mass eps w.1
        (randomMomentum w.2.1 mass) w.2.2).newQ
    ∀ A B : Set (C → ι → ℝ), MeasurableSet A → MeasurableSet B →
      (target.prod (normals.prod uniforms)) {w | w.1 ∈ A ∧ next w ∈ B} =
        (target.prod (normals.prod uniforms)) {w | w.1 ∈ B ∧ next w ∈ A} := by
  intro target normals uniforms next A B hA hB
  have ht : target = Measure.pi fun c => Hmc.target (l c) := rfl
  have hu : uniforms = Measure.pi fun _ => unif := rfl
  set T : (c : C) → (ι → ℝ) × (ι → ℝ) × ℝ → ι → ℝ := fun c w =>
    chainStep mass (g c) (l c) n eps w.1 (fun i => w.2.1 i * Real.sqrt (mass i)) w.2.2 with hT
  have mT : ∀ c, Measurable (T c) := by
    intro c
    have mz : Measurable fun w : (ι → ℝ) × (ι → ℝ) × ℝ =>
        (w.1, (fun i => w.2.1 i * Real.sqrt (mass i) : ι → ℝ), w.2.2) := by fun_prop
    exact (measurable_chainStep mass (g c) (l c) n eps (hg c) (hl c)).comp mz
  have h1 := measurePreserving_arrowProdEquivProdArrow (ι → ℝ) ℝ C
    (fun _ => Measure.pi fun _ : ι => gaussianReal 0 1) (fun _ => unif)
  have h2 := measurePreserving_arrowProdEquivProdArrow (ι → ℝ) ((ι → ℝ) × ℝ) C
    (fun c => Hmc.target (l c)) (fun _ => (Measure.pi fun _ : ι => gaussianReal 0 1).prod unif)
  have h3 := ((MeasurePreserving.id (Measure.pi fun c => Hmc.target (l c))).prod h1).comp h2
  have mn : Measurable next := measurable_transition n mass eps l hl g hg
  have en : ∀ w c, next w c = T c (w.1 c, w.2.1 c, w.2.2 c) := by
    intro w c
    simp only [next, transition_chain]
    rfl
  set P : C → Measure ((ι → ℝ) × (ι → ℝ) × ℝ) := fun c =>
    (Hmc.target (l c)).prod ((Measure.pi fun _ : ι => gaussianReal 0 1).prod unif) with hP
  -- the pairs of positions of the chains
  have hrev : ∀ c, (P c).map (fun w => (w.1, T c w)) = (P c).map (fun w => (T c w, w.1)) := fun c =>
    chain_reversible mass (g c) (l c) n eps (hg c) (hl c) hm
  have hfst : ∀ c, ((P c).map (fun w => (w.1, T c w))).map Prod.fst = Hmc.target (l c) := by
    intro c
    rw [Measure.map_map measurable_fst (measurable_fst.prodMk (mT c))]
    show (P c).map Prod.fst = _
    rw [← Measure.fst, hP]
    simp
  have sf1 : ∀ c, SigmaFinite ((P c).map (fun w => (w.1, T c w))) := fun c => by
    have : SigmaFinite (((P c).map (fun w => (w.1, T c w))).map Prod.fst) := by rw [hfst]; infer_instance
    exact SigmaFinite.of_map _ measurable_fst.aemeasurable this
  have sf2 : ∀ c, SigmaFinite ((P c).map (fun w => (T c w, w.1))) := fun c => by rw [← hrev]; exact sf1 c
  have p1 := Measure.pi_map_pi (μ := P) (f := fun c w => (w.1, T c w))
    (fun c => (measurable_fst.prodMk (mT c)).aemeasurable)
  have p2 := Measure.pi_map_pi (μ := P) (f := fun c w => (T c w, w.1))
    (fun c => ((mT c).prodMk measurable_fst).aemeasurable)
  have hpi : (Measure.pi P).map (fun x c => ((x c).1, T c (x c))) =
      (Measure.pi P).map (fun x c => (T c (x c), (x c).1)) := by
    rw [p1, p2]
    congr 1
    funext c
    exact hrev c
  have mD : MeasurableSet {y : C → (ι → ℝ) × (ι → ℝ) | (fun c => (y c).1) ∈ A ∧ (fun c => (y c).2) ∈ B} := by
    have a1 : Measurable fun y : C → (ι → ℝ) × (ι → ℝ) => fun c => (y c).1 :=
      measurable_pi_lambda _ fun c => measurable_fst.comp (measurable_pi_apply c)
    have a2 : Measurable fun y : C → (ι → ℝ) × (ι → ℝ) => fun c => (y c).2 :=
      measurable_pi_lambda _ fun c => measurable_snd.comp (measurable_pi_apply c)
    exact (a1 hA).inter (a2 hB)
  have m1 : Measurable fun (x : C → (ι → ℝ) × (ι → ℝ) × ℝ) c => ((x c).1, T c (x c)) :=
    measurable_pi_lambda _ fun c => (measurable_fst.prodMk (mT c)).comp (measurable_pi_apply c)
  have m2 : Measurable fun (x : C → (ι → ℝ) × (ι → ℝ) × ℝ) c => (T c (x c), (x c).1) :=
    measurable_pi_lambda _ fun c => ((mT c).prodMk measurable_fst).comp (measurable_pi_apply c)
  have mS : ∀ A B : Set (C → ι → ℝ), MeasurableSet A → MeasurableSet B →
      MeasurableSet {w : (C → ι → ℝ) × (C → ι → ℝ) × (C → ℝ) | w.1 ∈ A ∧ next w ∈ B} := fun A B hA hB =>
    (measurable_fst hA).inter (mn hB)
  have h5 : (Measure.pi P).map (fun x c => ((x c).1, T c (x c)))
        {y | (fun c => (y c).1) ∈ A ∧ (fun c => (y c).2) ∈ B} =
      (Measure.pi P).map (fun x c => (T c (x c), (x c).1))
        {y | (fun c => (y c).1) ∈ A ∧ (fun c => (y c).2) ∈ B} := by rw [hpi]
  rw [Measure.map_apply m1 mD, Measure.map_apply m2 mD] at h5
  rw [ht, hu, ← h3.map_eq, Measure.map_apply h3.measurable (mS A B hA hB),
    Measure.map_apply h3.measurable (mS B A hB hA)]
  refine Eq.trans ?_ (h5.trans ?_)
  · congr 1
    ext x
    simp only [mem_preimage, mem_setOf_eq]
    rw [show next _ = fun c => T c (x c) from funext fun c => en _ c]
    rfl
  · congr 1
    ext x
    simp only [mem_preimage, mem_setOf_eq]
    rw [show next _ = fun c => T c (x c) from funext fun c => en _ c]
    exact and_comm

/-- Runs of the operation when the variables other than the positions take the values `R`. -/
theorem runs_eq (cfg : Cfg ℝ) (logPost : (C → ι → ℝ) → C → ℝ) (grad : (C → ι → ℝ) → C → ι → ℝ) (feed : Feed)
    (R : ℕ → State ℝ C ι) (T : ℕ → (C → ι → ℝ) → (C → ι → ℝ) × (C → ℝ) → C → ι → ℝ)
    (h : ∀ j q w, ∃ info, sample cfg logPost grad feed w.1 w.2 { R j with q := q } =
      .ok { R (j + 1) with q := T j q w } info) (q : C → ι → ℝ) (n : ℕ) (w : Fin n → (C → ι → ℝ) × (C → ℝ)) :
    runs cfg logPost grad feed { R 0 with q := q } n w = some { R n with q := Meas.iter T q n w } := by
  induction n with
  | zero => rfl
  | succ n ih =>
    obtain ⟨info, h1⟩ := h n (Meas.iter T q n fun i => w i.castSucc) (w (Fin.last n))
    simp only [runs, ih, h1]
    rfl

/-- **C52.** Any number of iterations of a sampler without adaptation finish, and leave the target invariant. -/
theorem C52_runs (cfg : Cfg ℝ) (h1 : cfg.adaptsStep = false) (h2 : cfg.adaptsMass = false)
    (feed : Feed) (l : C → (ι → ℝ) → ℝ) (hl : ∀ c, Measurable (l c)) (g : C → (ι → ℝ) → ι → ℝ)
    (hg : ∀ c, Measurable (g c)) (s : State ℝ C ι) (n : ℕ) :
    let target : Measure (C → ι → ℝ) :=
      Measure.pi fun c => volume.withDensity fun q => ENNReal.ofReal (Real.exp (l c q))
    let noise : Measure ((C → ι → ℝ) × (C → ℝ)) := (Measure.pi fun _ => Measure.pi fun _ => gaussianReal 0 1).prod
      (Measure.pi fun _ => volume.restrict (Ico 0 1))
    ∃ final : (C → ι → ℝ) × (Fin n → (C → ι → ℝ) × (C → ℝ)) → C → ι → ℝ, Measurable final ∧
      (∀ q w, runs cfg (fun q c => l c (q c)) (fun q c => g c (q c)) feed { s with q := q } n w =
        some { s with q := final (q, w) }) ∧
      (target.prod (Measure.pi fun _ => noise)).map final = target := by
  intro target noise
  have hu : IsProbabilityMeasure (volume.restrict (Ico (0 : ℝ) 1)) := ⟨by simp⟩
  set T : ℕ → (C → ι → ℝ) → (C → ι → ℝ) × (C → ℝ) → C → ι → ℝ := fun _ q w =>
    (transition cfg.nLeapfrogs (fun q c => l c (q c)) (fun q c => g c (q c)) (fun _ => 1) s.stepSize q
        (randomMomentum w.1 (fun _ => 1)) w.2).newQ with hT
  have mT : ∀ k, Measurable fun p : (C → ι → ℝ) × (C → ι → ℝ) × (C → ℝ) => T k p.1 p.2 := fun _ =>
    measurable_transition cfg.nLeapfrogs (fun _ => 1) s.stepSize l hl g hg
  refine ⟨fun p => Meas.iter T p.1 n p.2, Meas.measurable_iter mT n, fun q w => ?_, ?_⟩
  · refine runs_eq cfg _ _ feed (fun _ => s) T (fun j q w => ?_) q n w
    obtain ⟨info, h⟩ := C53_fixed cfg h1 h2 (fun q c => l c (q c)) (fun q c => g c (q c)) feed w.1 w.2
      { s with q := q }
    refine ⟨info, h.trans ?_⟩
    have : randomMomentum w.1 (fun _ : ι => (1 : ℝ)) = w.1 := by
      funext c i
      simp [randomMomentum]
    simp only [hT, this]
  · have hs : SigmaFinite target := by
      show SigmaFinite (Measure.pi fun c => Hmc.target (l c))
      infer_instance
    exact Meas.iter_law mT
      (fun _ => C52_invariant cfg.nLeapfrogs (fun _ => 1) (fun _ => one_pos) s.stepSize l hl g hg) n

omit [Fintype C] [Fintype ι] in
theorem burnedMass_pos (cfg : Cfg ℝ) (s : State ℝ C ι) (hv : cfg.adaptsMass = true → ∀ i, 0 < s.ewmv.var i) (i : ι) :
    0 < burnedMass cfg s i := by
  unfold burnedMass
  split_ifs with hm
  · exact one_div_pos.2 (hv hm i)
  · exact one_pos

/-- One iteration as a function of the positions and the draws. -/
noncomputable def multiStep (n : ℕ) (mass : ι → ℝ) (eps : ℝ) (l : C → (ι → ℝ) → ℝ) (g : C → (ι → ℝ) → ι → ℝ)
    (q : C → ι → ℝ) (w : (C → ι → ℝ) × (C → ℝ)) : C → ι → ℝ :=
  (transition n (fun q c => l c (q c)) (fun q c => g c (q c)) mass eps q (randomMomentum w.1 mass) w.2).newQ

/-- Runs of the operation after a burn-in. -/
theorem runs_after (cfg : Cfg ℝ) (feed : Feed) (hf1 : feed.adaptStep = false)
    (hf2 : feed.adaptMass = false) (l : C → (ι → ℝ) → ℝ) (g : C → (ι → ℝ) → ι → ℝ) (s : State ℝ C ι) (ht : 1 ≤ s.t)
    (ht' : cfg.massCollect ≤ s.t) (n : ℕ) (q : C → ι → ℝ) (w : Fin n → (C → ι → ℝ) × (C → ℝ)) :
    ∃ s', runs cfg (fun q c => l c (q c)) (fun q c => g c (q c)) feed { s with q := q } n w = some s' ∧
      s'.q = Meas.iter (fun j => multiStep cfg.nLeapfrogs (burnedMass cfg s) (burnedStep cfg s j) l g) q n w ∧
      s'.tuner = s.tuner ∧ s'.ewmv = s.ewmv ∧ s'.stepSize = burnedStep cfg s n := by
  have hmass : ∀ j (q : C → ι → ℝ), adaptMass cfg feed (s.t + j + 1) q s.ewmv = (s.ewmv, burnedMass cfg s) := by
    intro j q
    unfold burnedMass
    change _ = (s.ewmv, if cfg.adaptsMass = true then precision s.ewmv.var else fun _ => 1)
    cases hm : cfg.adaptsMass with
    | false => simp [adaptMass, hm]
    | true =>
      simp only [adaptMass, hm, hf2, if_true, Bool.false_eq_true, if_false]
      rw [if_neg (by omega)]
  set mass := burnedMass cfg s with hmassdef
  set eps : ℕ → ℝ := burnedStep cfg s with heps
  set R : ℕ → State ℝ C ι := fun j =>
    { s with t := if cfg.adaptsStep || cfg.adaptsMass then s.t + j else s.t, stepSize := eps j } with hR
  set T : ℕ → (C → ι → ℝ) → (C → ι → ℝ) × (C → ℝ) → C → ι → ℝ := fun j =>
    multiStep cfg.nLeapfrogs mass (eps j) l g with hT
  have hstep : ∀ j q w, ∃ info, sample cfg (fun q c => l c (q c)) (fun q c => g c (q c)) feed w.1 w.2
      { R j with q := q } = .ok { R (j + 1) with q := T j q w } info := by
    intro j q w
    obtain ⟨j', hj', ej, ej'⟩ : ∃ j', (R j).t = s.t + j' ∧
        ((cfg.adaptsStep || cfg.adaptsMass) = true → j' = j) ∧
        ((cfg.adaptsStep || cfg.adaptsMass) = false → j' = 0) := by
      cases h : (cfg.adaptsStep || cfg.adaptsMass) with
      | true => exact ⟨j, by simp [hR, h], by simp, by simp⟩
      | false => exact ⟨0, by simp [hR, h], by simp, by simp⟩
    have hi : ifInitialize cfg (s.t + j' + 1) = false := by
      simp only [ifInitialize, Bool.or_eq_false_iff, beq_eq_false_iff_ne]
      omega
    have eu : ∀ mass q p x, usedStepSize cfg (fun q c => l c (q c)) (fun q c => g c (q c)) (s.t + j' + 1) mass q p
        x = some x := by
      intro mass q p x
      simp [usedStepSize, hi]
    have et : (R j).stepSize = eps j := rfl
    have ee : (R j).ewmv = s.ewmv := rfl
    simp only [sample, hj', ee, et, hmass, eu]
    rw [if_pos (allFinite _)]
    refine ok_exists _ _ _ ?_
    simp only [State.mk.injEq, hR, hT, heps, burnedStep, multiStep]
    refine ⟨trivial, ?_, ?_, ?_⟩
    · cases h : (cfg.adaptsStep || cfg.adaptsMass) with
      | true => simp [ej h, add_assoc]
      | false => simp [ej' h]
    · cases h : cfg.adaptsStep <;> simp [Tuner.tune, hf1]
    · cases h : cfg.adaptsStep <;> simp [Tuner.tune, hf1]
  have h := runs_eq cfg _ _ feed R T hstep q n w
  have e0 : ({ R 0 with q := q } : State ℝ C ι) = { s with q := q } := by
    simp [hR, heps, burnedStep]
  rw [e0] at h
  exact ⟨_, h, rfl, rfl, rfl, rfl⟩

/-- Runs of the operation of a sampler without adaptation. -/
theorem runs_fixed (cfg : Cfg ℝ) (h1 : cfg.adaptsStep = false) (h2 : cfg.adaptsMass = false)
    (feed : Feed) (l : C → (ι → ℝ) → ℝ) (g : C → (ι → ℝ) → ι → ℝ) (s : State ℝ C ι) (n : ℕ) (q : C → ι → ℝ)
    (w : Fin n → (C → ι → ℝ) × (C → ℝ)) :
    runs cfg (fun q c => l c (q c)) (fun q c => g c (q c)) feed { s with q := q } n w =
      some { s with q := Meas.iter (fun _ => multiStep cfg.nLeapfrogs (fun _ => 1) s.stepSize l g) q n w } := by
  refine runs_eq cfg _ _ feed (fun _ => s) _ (fun j q w => ?_) q n w
  obtain ⟨info, h⟩ := C53_fixed cfg h1 h2 (fun q c => l c (q c)) (fun q c => g c (q c)) feed w.1 w.2
    { s with q := q }
  refine ⟨info, h.trans ?_⟩
  have : randomMomentum w.1 (fun _ : ι => (1 : ℝ)) = w.1 := by
    funext c i
    simp [randomMomentum]
  simp only [multiStep, this]

/-- **C52.** The documented practice: after the burn-in the adaptation tensors are fed False.  Then any number of
iterations finish, the mass and, from the second on, the step size stay as the burn-in left them, and the
target is invariant. -/
theorem C52_runs_after_burn_in (cfg : Cfg ℝ) (feed : Feed) (hf1 : feed.adaptStep = false)
    (hf2 : feed.adaptMass = false) (l : C → (ι → ℝ) → ℝ) (hl : ∀ c, Measurable (l c)) (g : C → (ι → ℝ) → ι → ℝ)
    (hg : ∀ c, Measurable (g c)) (s : State ℝ C ι) (ht : 1 ≤ s.t) (ht' : cfg.massCollect ≤ s.t)
    (hv : cfg.adaptsMass = true → ∀ i, 0 < s.ewmv.var i) (n : ℕ) :
    let target : Measure (C → ι → ℝ) :=
      Measure.pi fun c => volume.withDensity fun q => ENNReal.ofReal (Real.exp (l c q))
    let noise : Measure ((C → ι → ℝ) × (C → ℝ)) := (Measure.pi fun _ => Measure.pi fun _ => gaussianReal 0 1).prod
      (Measure.pi fun _ => volume.restrict (Ico 0 1))
    ∃ final : (C → ι → ℝ) × (Fin n → (C → ι → ℝ) × (C → ℝ)) → C → ι → ℝ, Measurable final ∧
      (∀ q w, ∃ s', runs cfg (fun q c => l c (q c)) (fun q c => g c (q c)) feed { s with q := q } n w = some s' ∧
        s'.q = final (q, w) ∧ s'.tuner = s.tuner ∧ s'.ewmv = s.ewmv ∧
        s'.stepSize = if cfg.adaptsStep = true ∧ n ≠ 0 then Real.exp s.tuner.logEpsBar else s.stepSize) ∧
      (target.prod (Measure.pi fun _ => noise)).map final = target := by
  intro target noise
  have hu : IsProbabilityMeasure (volume.restrict (Ico (0 : ℝ) 1)) := ⟨by simp⟩
  set T : ℕ → (C → ι → ℝ) → (C → ι → ℝ) × (C → ℝ) → C → ι → ℝ := fun j =>
    multiStep cfg.nLeapfrogs (burnedMass cfg s) (burnedStep cfg s j) l g with hT
  have mT : ∀ k, Measurable fun p : (C → ι → ℝ) × (C → ι → ℝ) × (C → ℝ) => T k p.1 p.2 := fun k =>
    measurable_transition cfg.nLeapfrogs (burnedMass cfg s) (burnedStep cfg s k) l hl g hg
  refine ⟨fun p => Meas.iter T p.1 n p.2, Meas.measurable_iter mT n, fun q w =>
    runs_after cfg feed hf1 hf2 l g s ht ht' n q w, ?_⟩
  have hs : SigmaFinite target := by
    show SigmaFinite (Measure.pi fun c => Hmc.target (l c))
    infer_instance
  exact Meas.iter_law mT (fun k =>
    C52_invariant cfg.nLeapfrogs _ (burnedMass_pos cfg s hv) (burnedStep cfg s k) l hl g hg) n

end ZhuSuan.Hmc
