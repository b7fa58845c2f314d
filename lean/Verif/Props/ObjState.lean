import Verif.Spec.ObjState
import Verif.Props.VObjective

/-!
# C84: a variational objective is one thing: it samples once, runs the model once and never changes its value

Over all histories of uses of one objective (`bn`, `tensor`, the gradient estimators) and of changes that the caller
makes in between to their dictionaries, their variational net and the model net.
-/

set_option autoImplicit false

namespace ZhuSuan.VObj
open ZhuSuan.BN

variable {V D L W D' : Type} [AddCommGroup L]

/-! ## What every action keeps -/

/-- The model has been run successfully. -/
def ModelRan (o : Objective V L W D') (w : World V D L W D') : Prop :=
  match o.model with
  | .func _ => w.logJointCache.isSome
  | .net _ => w.bn.isSome

/-- What holds between the state before and the state after any action. -/
structure Evolves (menv : Env W D' L) (o : Objective V L W D') (w w' : World V D L W D') : Prop where
  tensor : ∀ t, w.tensor = some t → w'.tensor = some t
  logJoint : ∀ l, w.logJointCache = some l → w'.logJointCache = some l
  entropy : ∀ h, w.entropyCache = some h → w'.entropyCache = some h
  bn : ∀ b, w.bn = some b → ∃ ops, w'.bn = some (run menv b ops)
  calls : ModelRan o w → w'.calls = w.calls
  callsLe : w.calls ≤ w'.calls
  movingMean : w.movingMean = true → w'.movingMean = true

theorem Evolves.refl (menv : Env W D' L) (o : Objective V L W D') (w : World V D L W D') : Evolves menv o w w :=
  ⟨fun _ h => h, fun _ h => h, fun _ h => h, fun _ h => ⟨[], h⟩, fun _ => rfl, Nat.le_refl _, fun h => h⟩

theorem Evolves.ran {menv : Env W D' L} {o : Objective V L W D'} {w w' : World V D L W D'} (h : Evolves menv o w w')
    (hr : ModelRan o w) : ModelRan o w' := by
  unfold ModelRan at hr ⊢
  split
  · rename_i heq
    simp only [heq] at hr
    obtain ⟨l, hl⟩ := Option.isSome_iff_exists.1 hr
    rw [h.logJoint l hl]; rfl
  · rename_i heq
    simp only [heq] at hr
    obtain ⟨l, hl⟩ := Option.isSome_iff_exists.1 hr
    obtain ⟨ops, h⟩ := h.bn l hl
    rw [h]; rfl

theorem Evolves.trans {menv : Env W D' L} {o : Objective V L W D'} {w w' w'' : World V D L W D'}
    (h : Evolves menv o w w') (h' : Evolves menv o w' w'') : Evolves menv o w w'' where
  tensor t ht := h'.tensor t (h.tensor t ht)
  logJoint t ht := h'.logJoint t (h.logJoint t ht)
  entropy t ht := h'.entropy t (h.entropy t ht)
  bn b hb := by
    obtain ⟨ops, h1⟩ := h.bn b hb
    obtain ⟨ops', h2⟩ := h'.bn _ h1
    refine ⟨ops ++ ops', ?_⟩
    rw [h2]; simp [run, List.foldl_append]
  calls hr := (h'.calls (h.ran hr)).trans (h.calls hr)
  callsLe := Nat.le_trans h.callsLe h'.callsLe
  movingMean hm := h'.movingMean (h.movingMean hm)

theorem validate_ok (b : State W D' L) : validate b = .ok () := by
  unfold validate
  rw [if_neg]
  simp only [List.any_map, Bool.not_eq_true, List.any_eq_false, Function.comp]
  intro x _
  simp [PyObj.isStochastic]

/-- The values handed to the model. -/
def givenOf (o : Objective V L W D') (w : World V D L W D') : Dict Name (Option (Tensor V)) := (o.attrs w).given w.q

/-- `bn` on a net model, spelled out. -/
theorem accessBn_net (o : Objective V L W D') (w : World V D L W D') (observe) (hm : o.model = .net observe) :
    accessBn o w = match w.bn with
      | some b => (.ok (some b), w)
      | none => match observe w.calls (givenOf o w) with
        | .error e => (.error e, { w with calls := w.calls + 1 })
        | .ok b => (.ok (some b), { w with bn := some b, calls := w.calls + 1 }) := by
  obtain ⟨d, q, bn, t, lj, ec, c, mm⟩ := w
  simp only [accessBn, hm, getBn]
  cases bn with
  | some b => simp
  | none =>
    simp only [givenOf]
    cases h : observe c ((o.attrs ⟨d, q, none, t, lj, ec, c, mm⟩).given q) with
    | error e => simp [h]
    | ok b => simp [h, validate_ok]

theorem accessBn_evolves (menv : Env W D' L) (o : Objective V L W D') (w : World V D L W D') :
    Evolves menv o w (accessBn o w).2 := by
  cases hm : o.model with
  | func f => simp only [accessBn, hm]; exact .refl ..
  | net observe =>
    rw [accessBn_net o w observe hm]
    cases hb : w.bn with
    | some b => exact .refl ..
    | none =>
      simp only
      split
      · exact ⟨fun _ h => h, fun _ h => h, fun _ h => h, fun _ h => (by rw [hb] at h; cases h),
          fun h => by simp [ModelRan, hm, hb] at h, by simp, fun h => h⟩
      · exact ⟨fun _ h => h, fun _ h => h, fun _ h => h, fun _ h => (by rw [hb] at h; cases h),
          fun h => by simp [ModelRan, hm, hb] at h, by simp, fun h => h⟩

/-- `_log_joint_term` on a net model, spelled out. -/
theorem logJointTerm_net (menv : Env W D' L) (o : Objective V L W D') (w : World V D L W D') (observe)
    (hm : o.model = .net observe) :
    logJointTerm menv o w = match w.bn with
      | some b => ((logJoint menv b).1, { w with bn := some (logJoint menv b).2 })
      | none => match observe w.calls (givenOf o w) with
        | .error e => (.error e, { w with calls := w.calls + 1 })
        | .ok b => ((logJoint menv b).1, { w with bn := some (logJoint menv b).2, calls := w.calls + 1 }) := by
  simp only [logJointTerm, hm, accessBn_net o w observe hm]
  cases hb : w.bn with
  | some b =>
    simp only
    rcases h : logJoint menv b with ⟨r, b'⟩
    cases r <;> rfl
  | none =>
    simp only
    cases observe w.calls (givenOf o w) with
    | error e => rfl
    | ok b =>
      simp only
      rcases h : logJoint menv b with ⟨r, b'⟩
      cases r <;> rfl

/-- `_log_joint_term` on a log joint function, spelled out. -/
theorem logJointTerm_func (menv : Env W D' L) (o : Objective V L W D') (w : World V D L W D') (f)
    (hm : o.model = .func f) :
    logJointTerm menv o w = match w.logJointCache with
      | some l => (.ok l, w)
      | none => match f w.calls (givenOf o w) with
        | .error e => (.error e, { w with calls := w.calls + 1 })
        | .ok l => (.ok l, { w with calls := w.calls + 1, logJointCache := some l }) := by
  simp only [logJointTerm, hm]; rfl

theorem run_logJoint (menv : Env W D' L) (b : State W D' L) : (logJoint menv b).2 = run menv b [.logJoint] := by
  simp only [run, List.foldl, BN.step]
  rcases logJoint menv b with ⟨r, b'⟩
  cases r <;> rfl

theorem logJointTerm_evolves (menv : Env W D' L) (o : Objective V L W D') (w : World V D L W D') :
    Evolves menv o w (logJointTerm menv o w).2 := by
  cases hm : o.model with
  | func f =>
    rw [logJointTerm_func menv o w f hm]
    cases hl : w.logJointCache with
    | some l => exact .refl ..
    | none =>
      simp only
      split
      · exact ⟨fun _ h => h, fun _ h => (by rw [hl] at h; cases h), fun _ h => h, fun _ h => ⟨[], h⟩,
          fun h => by simp [ModelRan, hm, hl] at h, by simp, fun h => h⟩
      · exact ⟨fun _ h => h, fun _ h => (by rw [hl] at h; cases h), fun _ h => h, fun _ h => ⟨[], h⟩,
          fun h => by simp [ModelRan, hm, hl] at h, by simp, fun h => h⟩
  | net observe =>
    rw [logJointTerm_net menv o w observe hm]
    cases hb : w.bn with
    | some b =>
      refine ⟨fun _ h => h, fun _ h => h, fun _ h => h, fun b' h => ⟨[.logJoint], ?_⟩, fun _ => rfl, by simp, fun h => h⟩
      rw [hb] at h; cases h
      simp only [run_logJoint]
    | none =>
      simp only
      split
      · exact ⟨fun _ h => h, fun _ h => h, fun _ h => h, fun _ h => (by rw [hb] at h; cases h),
          fun h => by simp [ModelRan, hm, hb] at h, by simp, fun h => h⟩
      · exact ⟨fun _ h => h, fun _ h => h, fun _ h => h, fun _ h => (by rw [hb] at h; cases h),
          fun h => by simp [ModelRan, hm, hb] at h, by simp, fun h => h⟩

theorem entropyCached_evolves (menv : Env W D' L) (o : Objective V L W D') (w : World V D L W D') :
    Evolves menv o w (entropyCached o w).2 := by
  unfold entropyCached
  split
  · exact .refl ..
  · rename_i h
    exact ⟨fun _ h => h, fun _ h => h, fun _ h' => (by rw [h] at h'; cases h'), fun _ h => ⟨[], h⟩,
      fun _ => rfl, Nat.le_refl _, fun h => h⟩

/-- An elimination rule for the calls of the class: a property of pairs of states that is reflexive and transitive and holds
across the two terms, the assignment of `_tensor` and the creation of `moving_mean` holds across every method. -/
theorem calls_rel (menv : Env W D' L) (o : Objective V L W D') (R : World V D L W D' → World V D L W D' → Prop)
    (hr : ∀ w, R w w) (ht : ∀ w w' w'', R w w' → R w' w'' → R w w'')
    (hbn : ∀ w, R w (accessBn o w).2)
    (hl : ∀ w, R w (logJointTerm menv o w).2) (he : ∀ w, R w (entropyCached o w).2)
    (hten : ∀ w t w', w.tensor = none → objective menv o w = (.ok t, w') → R w' { w' with tensor := some t })
    (hmm : ∀ w : World V D L W D', R w { w with movingMean := true }) (env : Env V D L) (w : World V D L W D')
    (op : OOp V D L W D') (hop : op.uses = true) (hop' : op.onModel = false) :
    R w (OOp.step env menv o w op).2 := by
  have hobj : ∀ w, R w (objective menv o w).2 := by
    intro w
    have h1 := hl w
    unfold objective
    split
    · exact hr w
    all_goals
      split
      · rename_i heq; rw [heq] at h1; exact h1
      · rename_i l w1 heq
        rw [heq] at h1
        have h2 := he w1
        split <;> rename_i heq2 <;> rw [heq2] at h2 <;> exact ht _ _ _ h1 h2
  have hT : ∀ w, R w (accessTensor menv o w).2 := by
    intro w
    unfold accessTensor
    split
    · exact hr w
    · rename_i hn
      have h1 := hobj w
      split
      · rename_i heq; rw [heq] at h1; exact h1
      · rename_i t w1 heq
        rw [heq] at h1
        exact ht _ _ _ h1 (hten w t w1 hn heq)
  have hmm' : ∀ (w : World V D L W D') (b : Bool), R w { w with movingMean := w.movingMean || b } := by
    intro w b
    cases b with
    | true => simpa using hmm w
    | false => simpa using hr w
  cases op with
  | setDict => simp [OOp.uses] at hop
  | netOp => simp [OOp.uses] at hop
  | bnOp => simp [OOp.onModel] at hop'
  | bn =>
    have := hbn w
    simp only [OOp.step]
    split <;> rename_i heq <;> rw [heq] at this <;> exact this
  | tensor => exact hT w
  | sgvb =>
    have h1 := hT w
    simp only [OOp.step, VObj.sgvb]
    split
    · exact hr w
    · split <;> rename_i heq <;> rw [heq] at h1 <;> exact h1
  | estimator cost =>
    simp only [OOp.step, VObj.estimator]
    split
    · exact hr w
    · have h1 := hl w
      split
      · rename_i heq; rw [heq] at h1; exact h1
      · rename_i l w1 heq
        rw [heq] at h1
        have h2 := he w1
        split
        · rename_i heq2; rw [heq2] at h2; exact ht _ _ _ h1 h2
        · rename_i h w2 heq2
          rw [heq2] at h2
          have h3 := he w2
          split <;> rename_i heq3 <;> rw [heq3] at h3 <;> exact ht _ _ _ h1 (ht _ _ _ h2 h3)
  | reinforce vr cost =>
    simp only [OOp.step, VObj.reinforce]
    split
    · have h1 := hl w
      split
      · rename_i heq; rw [heq] at h1; exact h1
      · rename_i l w1 heq
        rw [heq] at h1
        have h2 := he w1
        split
        · rename_i heq2; rw [heq2] at h2; exact ht _ _ _ h1 h2
        · rename_i h w2 heq2
          rw [heq2] at h2
          have h12 := ht _ _ _ h1 h2
          split
          · exact h12
          · have h13 := ht _ _ _ h12 (hmm' w2 vr)
            have h4 := hl { w2 with movingMean := w2.movingMean || vr }
            split
            · rename_i heq4; rw [heq4] at h4; exact ht _ _ _ h13 h4
            · rename_i l' w4 heq4
              rw [heq4] at h4
              have h5 := he w4
              split <;> rename_i heq5 <;> rw [heq5] at h5 <;> exact ht _ _ _ h13 (ht _ _ _ h4 h5)
    · exact hr w

theorem accessBn_tensor (o : Objective V L W D') (w : World V D L W D') : (accessBn o w).2.tensor = w.tensor := by
  cases hm : o.model with
  | func f => simp [accessBn, hm]
  | net observe =>
    rw [accessBn_net o w observe hm]
    split
    · rfl
    · split <;> rfl

theorem logJointTerm_tensor (menv : Env W D' L) (o : Objective V L W D') (w : World V D L W D') :
    (logJointTerm menv o w).2.tensor = w.tensor := by
  cases hm : o.model with
  | func f =>
    rw [logJointTerm_func menv o w f hm]
    split
    · rfl
    · split <;> rfl
  | net observe =>
    rw [logJointTerm_net menv o w observe hm]
    split
    · rfl
    · split <;> rfl

theorem entropyCached_tensor (o : Objective V L W D') (w : World V D L W D') :
    (entropyCached o w).2.tensor = w.tensor := by
  unfold entropyCached; split <;> rfl

theorem objective_evolves_tensor (menv : Env W D' L) (o : Objective V L W D') (w : World V D L W D') :
    (objective menv o w).2.tensor = w.tensor := by
  unfold objective
  have h1 := logJointTerm_tensor menv o w
  split
  · rfl
  all_goals
    split
    · rename_i heq; rw [heq] at h1; exact h1
    · rename_i l w1 heq
      rw [heq] at h1
      have h2 := entropyCached_tensor o w1
      split <;> rename_i heq2 <;> rw [heq2] at h2 <;> exact h2.trans h1

theorem step_evolves (env : Env V D L) (menv : Env W D' L) (o : Objective V L W D') (w : World V D L W D')
    (op : OOp V D L W D') : Evolves menv o w (OOp.step env menv o w op).2 := by
  by_cases hu : op.uses = true
  · by_cases hb : op.onModel = false
    · refine calls_rel menv o (Evolves menv o) (fun w => .refl ..) (fun _ _ _ h h' => h.trans h')
        (accessBn_evolves menv o) (logJointTerm_evolves menv o) (entropyCached_evolves menv o) ?_ ?_ env w op hu hb
      · intro w t w' hn h
        have := objective_evolves_tensor menv o w
        rw [h, hn] at this
        exact ⟨fun _ h => (by simp only at this; rw [this] at h; cases h), fun _ h => h, fun _ h => h,
          fun _ h => ⟨[], h⟩, fun _ => rfl, Nat.le_refl _, fun h => h⟩
      · intro w
        exact ⟨fun _ h => h, fun _ h => h, fun _ h => h, fun _ h => ⟨[], h⟩, fun _ => rfl, Nat.le_refl _, fun _ => rfl⟩
    · cases op <;> simp [OOp.onModel] at hb
      rename_i op
      refine ⟨fun _ h => h, fun _ h => h, fun _ h => h, fun b h => ⟨[op], ?_⟩, fun _ => rfl, Nat.le_refl _, fun h => h⟩
      simp [OOp.step, h, run]
  · cases op <;> simp [OOp.uses] at hu <;>
      exact ⟨fun _ h => h, fun _ h => h, fun _ h => h, fun _ h => ⟨[], h⟩, fun _ => rfl, Nat.le_refl _, fun h => h⟩

theorem history_evolves (env : Env V D L) (menv : Env W D' L) (o : Objective V L W D') (ops : List (OOp V D L W D'))
    (w : World V D L W D') : Evolves menv o w (history env menv o w ops).2 := by
  induction ops generalizing w with
  | nil => exact .refl ..
  | cons op ops ih => exact (step_evolves env menv o w op).trans (ih _)

theorem logJointTerm_ran (menv : Env W D' L) (o : Objective V L W D') (w : World V D L W D') (l : L)
    (h : (logJointTerm menv o w).1 = .ok l) : ModelRan o (logJointTerm menv o w).2 := by
  cases hm : o.model with
  | func f =>
    rw [logJointTerm_func menv o w f hm] at h ⊢
    simp only [ModelRan, hm]
    cases hl : w.logJointCache with
    | some l => simp [hl]
    | none =>
      simp only [hl] at h ⊢
      cases hf : f w.calls (givenOf o w) <;> simp [hf] at h ⊢
  | net observe =>
    rw [logJointTerm_net menv o w observe hm] at h ⊢
    simp only [ModelRan, hm]
    cases hl : w.bn with
    | some l => simp [hl]
    | none =>
      simp only [hl] at h ⊢
      cases hf : observe w.calls (givenOf o w) <;> simp [hf] at h ⊢

/-! ## The theorems -/

/-- Whatever happens between them, two reads of `tensor` give the same tensor, and `sgvb()` is its negative: the caller
may change their dictionaries, the variational net or the model net, run other estimators or fail in between. -/
theorem C84_tensor_fixed (env : Env V D L) (menv : Env W D' L) (o : Objective V L W D') (w : World V D L W D') (t : L)
    (h : (OOp.step env menv o w .tensor).1 = .val t) (ops : List (OOp V D L W D')) :
    let w' := (history env menv o (OOp.step env menv o w .tensor).2 ops).2
    (OOp.step env menv o w' .tensor).1 = .val t ∧
      (o.kind ≠ .klpq → (OOp.step env menv o w' .sgvb).1 = .val (-t)) := by
  intro w'
  have h1 : (OOp.step env menv o w .tensor).2.tensor = some t := by
    simp only [OOp.step] at h ⊢
    unfold accessTensor at h ⊢
    cases hw : w.tensor with
    | some t' =>
      simp only [hw, OOut.of, OOut.val.injEq] at h
      simpa [hw] using h
    | none =>
      simp only [hw] at h ⊢
      rcases ho : objective menv o w with ⟨r, w1⟩
      rw [ho] at h
      cases r with
      | error e => simp [OOut.of] at h
      | ok t' => simpa [OOut.of] using h
  have h2 : w'.tensor = some t := (history_evolves env menv o ops _).tensor t h1
  refine ⟨?_, fun hk => ?_⟩
  · simp [OOp.step, accessTensor, h2, OOut.of]
  · cases hkk : o.kind <;> simp [OOp.step, VObj.sgvb, accessTensor, h2, OOut.of, hkk] at hk ⊢

theorem logJointTerm_ran' (menv : Env W D' L) (o : Objective V L W D') (w : World V D L W D') (l : L)
    (w' : World V D L W D') (h : logJointTerm menv o w = (.ok l, w')) : ModelRan o w' := by
  have := logJointTerm_ran menv o w l (by rw [h])
  rwa [h] at this

theorem entropyCached_ran (menv : Env W D' L) (o : Objective V L W D') (w w' : World V D L W D') (x : Option L)
    (h : entropyCached o w = (x, w')) (hr : ModelRan o w) : ModelRan o w' := by
  have := (entropyCached_evolves menv o w).ran hr
  rwa [h] at this

theorem objective_ran (menv : Env W D' L) (o : Objective V L W D') (w : World V D L W D') (l : L)
    (w' : World V D L W D') (h : objective menv o w = (.ok l, w')) : ModelRan o w' := by
  unfold objective at h
  cases hk : o.kind <;> simp only [hk] at h
  · rcases h1 : logJointTerm menv o w with ⟨r, w1⟩
    rw [h1] at h
    cases r with
    | error e => simp at h
    | ok l1 =>
      simp only at h
      rcases h2 : entropyCached o w1 with ⟨r, w2⟩
      rw [h2] at h
      have := entropyCached_ran menv o _ _ _ h2 (logJointTerm_ran' menv o _ _ _ h1)
      cases r <;> simp only [Prod.mk.injEq] at h <;> rw [← h.2] <;> exact this
  · rcases h1 : logJointTerm menv o w with ⟨r, w1⟩
    rw [h1] at h
    cases r with
    | error e => simp at h
    | ok l1 =>
      simp only at h
      rcases h2 : entropyCached o w1 with ⟨r, w2⟩
      rw [h2] at h
      have := entropyCached_ran menv o _ _ _ h2 (logJointTerm_ran' menv o _ _ _ h1)
      cases r <;> simp only [Prod.mk.injEq] at h
      · simp at h
      · rw [← h.2]; exact this
  · simp at h

/-- An action that gives a value leaves the model run. -/
theorem ran_of_val (env : Env V D L) (menv : Env W D' L) (o : Objective V L W D') (w : World V D L W D')
    (hw : w.tensor.isSome → ModelRan o w) (op : OOp V D L W D') (t : L) (h : (OOp.step env menv o w op).1 = .val t) :
    ModelRan o (OOp.step env menv o w op).2 := by
  have hlj := logJointTerm_ran' (V := V) (D := D) menv o
  have hen := entropyCached_ran (V := V) (D := D) menv o
  have hob := objective_ran (V := V) (D := D) menv o
  have htn : ∀ l w', accessTensor menv o w = (.ok l, w') → ModelRan o w' := by
    intro l w' h
    unfold accessTensor at h
    cases ht : w.tensor with
    | some t' =>
      simp only [ht, Prod.mk.injEq] at h
      rw [← h.2]; exact hw (by simp [ht])
    | none =>
      simp only [ht] at h
      rcases h1 : objective menv o w with ⟨r, w1⟩
      rw [h1] at h
      cases r with
      | error e => simp at h
      | ok l1 =>
        simp only [Prod.mk.injEq] at h
        rw [← h.2]
        have := hob _ _ _ h1
        exact this
  cases op with
  | setDict => simp [OOp.step] at h
  | netOp => simp [OOp.step] at h
  | bnOp => simp [OOp.step] at h
  | bn => simp only [OOp.step] at h; split at h <;> simp at h
  | tensor =>
    simp only [OOp.step] at h ⊢
    rcases h1 : accessTensor menv o w with ⟨r, w1⟩
    rw [h1] at h
    cases r with
    | error e => simp [OOut.of] at h
    | ok l => exact htn _ _ h1
  | sgvb =>
    simp only [OOp.step] at h ⊢
    unfold VObj.sgvb at h ⊢
    rcases h1 : accessTensor menv o w with ⟨r, w1⟩
    rw [h1] at h
    cases hk : o.kind <;> simp only [hk] at h ⊢ <;> first | (simp [OOut.of] at h; done) | skip
    all_goals
      cases r with
      | error e => simp [OOut.of] at h
      | ok l => exact htn _ _ h1
  | estimator cost =>
    simp only [OOp.step] at h ⊢
    unfold VObj.estimator at h ⊢
    rcases h1 : logJointTerm menv o w with ⟨r, w1⟩
    rw [h1] at h
    cases hk : o.kind <;> simp only [hk] at h ⊢ <;> first | (simp [OOut.of] at h; done) | skip
    all_goals
      cases r with
      | error e => simp [OOut.of] at h
      | ok l =>
        simp only at h ⊢
        rcases h2 : entropyCached o w1 with ⟨r2, w2⟩
        rw [h2] at h
        cases r2 with
        | none => simp [OOut.of] at h
        | some x =>
          simp only at h ⊢
          rcases h3 : entropyCached o w2 with ⟨r3, w3⟩
          rw [h3] at h
          cases r3 with
          | none => simp [OOut.of] at h
          | some y => exact hen _ _ _ h3 (hen _ _ _ h2 (hlj _ _ _ h1))
  | reinforce vr cost =>
    simp only [OOp.step] at h ⊢
    unfold VObj.reinforce at h ⊢
    rcases h1 : logJointTerm menv o w with ⟨r, w1⟩
    rw [h1] at h
    cases hk : o.kind <;> simp only [hk] at h ⊢ <;> first | (simp [OOut.of] at h; done) | skip
    cases r with
    | error e => simp [OOut.of] at h
    | ok l =>
      simp only at h ⊢
      rcases h2 : entropyCached o w1 with ⟨r2, w2⟩
      rw [h2] at h
      cases r2 with
      | none => simp [OOut.of] at h
      | some x =>
        simp only at h ⊢
        split at h
        · simp [OOut.of] at h
        · rename_i hcond
          rw [if_neg hcond]
          rcases h4 : logJointTerm menv o { w2 with movingMean := w2.movingMean || vr } with ⟨r4, w4⟩
          rw [h4] at h
          cases r4 with
          | error e => simp [OOut.of] at h
          | ok l4 =>
            simp only at h ⊢
            rcases h5 : entropyCached o w4 with ⟨r5, w5⟩
            rw [h5] at h
            cases r5 with
            | none => simp [OOut.of] at h
            | some y => exact hen _ _ _ h5 (hlj _ _ _ h4)

theorem new_spec (env : Env V D L) (kind : Kind) (reduce : L → L) (model : Model V L W D')
    (variational : Option (VArg V D L)) (latent : Option (Dict Name (Tensor V × L)))
    (dicts : List (Dict Name (Tensor V))) (ref calls : ℕ) (mm : Bool) (o : Objective V L W D') (w : World V D L W D')
    (h : new env kind reduce model variational latent dicts ref calls mm = .ok (o, w)) :
    ∃ v q, construct env variational latent ((dicts[ref]?).getD []) = .ok (v, q) ∧
      o = ⟨kind, reduce, model, v.vInputs, v.vLogProbs, dicts.length⟩ ∧
      w = ⟨dicts ++ [v.observed], q, none, none, none, none, calls, mm⟩ := by
  unfold new at h
  simp only at h
  cases hc : construct env variational latent ((dicts[ref]?).getD []) with
  | error e => simp [hc] at h
  | ok vq =>
    obtain ⟨v, q⟩ := vq
    simp only [hc, Except.ok.injEq, Prod.mk.injEq] at h
    refine ⟨v, q, rfl, ?_, h.2.symm⟩
    rw [← h.1]; simp

/-- Along a history, an objective whose value has been computed has run its model. -/
theorem tensor_ran (env : Env V D L) (menv : Env W D' L) (o : Objective V L W D') (ops : List (OOp V D L W D'))
    (w : World V D L W D') (hw : w.tensor.isSome → ModelRan o w) :
    (history env menv o w ops).2.tensor.isSome → ModelRan o (history env menv o w ops).2 := by
  induction ops generalizing w with
  | nil => exact hw
  | cons op ops ih =>
    simp only [history]
    apply ih
    have hE := step_evolves env menv o w op
    have same : (OOp.step env menv o w op).2.tensor = w.tensor →
        ((OOp.step env menv o w op).2.tensor.isSome → ModelRan o (OOp.step env menv o w op).2) :=
      fun h1 h2 => hE.ran (hw (by rwa [h1] at h2))
    by_cases hu : op.uses = true
    · by_cases hb : op.onModel = false
      · refine calls_rel menv o (fun w w' => (w.tensor.isSome → ModelRan o w) → (w'.tensor.isSome → ModelRan o w'))
          (fun _ h => h) (fun _ _ _ h h' h0 => h' (h h0)) ?_ ?_ ?_ ?_ ?_ env w op hu hb hw
        · intro w h1 h2
          rw [accessBn_tensor] at h2
          exact (accessBn_evolves menv o w).ran (h1 h2)
        · intro w h1 h2
          rw [logJointTerm_tensor] at h2
          exact (logJointTerm_evolves menv o w).ran (h1 h2)
        · intro w h1 h2
          rw [entropyCached_tensor] at h2
          exact (entropyCached_evolves menv o w).ran (h1 h2)
        · intro w t w' _ h1 _ _
          have := objective_ran menv o w t w' h1
          exact this
        · intro w h1 h2
          exact h1 h2
      · cases op <;> simp [OOp.onModel] at hb
        exact same rfl
    · cases op <;> simp [OOp.uses] at hu <;> exact same rfl

theorem ran_of_bn (env : Env V D L) (menv : Env W D' L) (o : Objective V L W D') (w : World V D L W D')
    (op : OOp V D L W D') (b : State W D' L) (h : (OOp.step env menv o w op).1 = .bn (some b)) :
    ModelRan o (OOp.step env menv o w op).2 ∧ (OOp.step env menv o w op).2.bn = some b := by
  cases op with
  | bn =>
    simp only [OOp.step] at h ⊢
    cases hm : o.model with
    | func f => simp [accessBn, hm] at h
    | net observe =>
      rw [accessBn_net o w observe hm] at h ⊢
      cases hb : w.bn with
      | some b' =>
        simp only [hb] at h ⊢
        cases h
        simp [ModelRan, hm, hb]
      | none =>
        simp only [hb] at h ⊢
        cases hf : observe w.calls (givenOf o w) with
        | error e => simp [hf] at h
        | ok b' =>
          simp only [hf] at h ⊢
          cases h
          simp [ModelRan, hm]
  | tensor => simp only [OOp.step] at h; cases h' : (accessTensor menv o w).1 <;> simp [h', OOut.of] at h
  | sgvb => simp only [OOp.step] at h; cases h' : (VObj.sgvb menv o w).1 <;> simp [h', OOut.of] at h
  | reinforce vr c =>
    simp only [OOp.step] at h; cases h' : (VObj.reinforce menv o w vr c).1 <;> simp [h', OOut.of] at h
  | estimator c => simp only [OOp.step] at h; cases h' : (VObj.estimator menv o w c).1 <;> simp [h', OOut.of] at h
  | setDict => simp [OOp.step] at h
  | netOp => simp [OOp.step] at h
  | bnOp => simp [OOp.step] at h

/-- **C84.** The model is run once: when any use of the objective has given a value or the model net, no later history calls
the model function again. -/
theorem C84_model_run_once (env : Env V D L) (menv : Env W D' L) (kind : Kind) (reduce : L → L)
    (model : Model V L W D') (variational : Option (VArg V D L)) (latent : Option (Dict Name (Tensor V × L)))
    (dicts : List (Dict Name (Tensor V))) (ref calls : ℕ) (mm : Bool) (o : Objective V L W D') (w : World V D L W D')
    (hn : new env kind reduce model variational latent dicts ref calls mm = .ok (o, w))
    (ops : List (OOp V D L W D')) (op : OOp V D L W D')
    (h : (∃ t, (OOp.step env menv o (history env menv o w ops).2 op).1 = .val t) ∨
      ∃ b, (OOp.step env menv o (history env menv o w ops).2 op).1 = .bn (some b)) (ops' : List (OOp V D L W D')) :
    (history env menv o (OOp.step env menv o (history env menv o w ops).2 op).2 ops').2.calls =
      (OOp.step env menv o (history env menv o w ops).2 op).2.calls := by
  apply (history_evolves env menv o ops' _).calls
  have h0 : w.tensor.isSome → ModelRan o w := by
    obtain ⟨v, q, _, _, rfl⟩ := new_spec env kind reduce model variational latent dicts ref calls mm o w hn
    simp
  rcases h with ⟨t, h⟩ | ⟨b, h⟩
  · exact ran_of_val env menv o _ (tensor_ran env menv o ops w h0) op t h
  · exact (ran_of_bn env menv o _ op b h).1

/-- Later uses of `bn` give the same net: what the caller finds is the first net after further calls on it. -/
theorem C84_bn_same (env : Env V D L) (menv : Env W D' L) (o : Objective V L W D') (w : World V D L W D')
    (b : State W D' L) (h : (OOp.step env menv o w .bn).1 = .bn (some b)) (ops : List (OOp V D L W D')) :
    ∃ ops', (OOp.step env menv o (history env menv o (OOp.step env menv o w .bn).2 ops).2 .bn).1 =
      .bn (some (run menv b ops')) := by
  have h1 := (ran_of_bn env menv o w .bn b h).2
  obtain ⟨ops', h3⟩ := (history_evolves env menv o ops _).bn b h1
  refine ⟨ops', ?_⟩
  cases hm : o.model with
  | func f => simp [OOp.step, accessBn, hm] at h
  | net observe =>
    simp only [OOp.step] at h3 ⊢
    rw [accessBn_net o _ observe hm, h3]

/-! ## The caller's dictionaries and variational net -/

/-- The same state with other dictionaries and another variational net. -/
def World.withUser (w : World V D L W D') (d : List (Dict Name (Tensor V))) (q : Option (State V D L)) :
    World V D L W D' := { w with dicts := d, q := q }

/-- A call `f` on the object depends on the dictionaries and the variational net only through the values given to the
model, and leaves them alone. -/
def Blind {α : Type} (o : Objective V L W D') (f : World V D L W D' → α × World V D L W D') : Prop :=
  ∀ w d q, givenOf o (w.withUser d q) = givenOf o w →
    f (w.withUser d q) = ((f w).1, (f w).2.withUser d q) ∧ (f w).2.dicts = w.dicts ∧ (f w).2.q = w.q

theorem givenOf_congr (o : Objective V L W D') {w w' : World V D L W D'} (hd : w'.dicts = w.dicts) (hq : w'.q = w.q) :
    givenOf o w' = givenOf o w := by
  simp only [givenOf, Objective.attrs, hd, hq]

theorem accessBn_blind (o : Objective V L W D') : Blind (D := D) o (accessBn o) := by
  intro w d q hg
  cases hm : o.model with
  | func f => simp [accessBn, hm]
  | net observe =>
    rw [accessBn_net o w observe hm, accessBn_net o _ observe hm, hg]
    simp only [World.withUser]
    cases hb : w.bn with
    | some b => simp [hb]
    | none => simp only; cases observe w.calls (givenOf o w) <;> simp [hb]

theorem logJointTerm_blind (menv : Env W D' L) (o : Objective V L W D') :
    Blind (D := D) o (logJointTerm menv o) := by
  intro w d q hg
  cases hm : o.model with
  | func f =>
    rw [logJointTerm_func menv o w f hm, logJointTerm_func menv o _ f hm, hg]
    simp only [World.withUser]
    cases hb : w.logJointCache with
    | some b => simp [hb]
    | none => simp only; cases f w.calls (givenOf o w) <;> simp [hb]
  | net observe =>
    rw [logJointTerm_net menv o w observe hm, logJointTerm_net menv o _ observe hm, hg]
    simp only [World.withUser]
    cases hb : w.bn with
    | some b => simp
    | none => simp only; cases observe w.calls (givenOf o w) <;> simp [hb]

theorem entropyCached_blind (o : Objective V L W D') : Blind (W := W) (D' := D') (D := D) o (entropyCached o) := by
  intro w d q _
  have he : entropyTerm (o.attrs (w.withUser d q)) = entropyTerm (o.attrs w) := rfl
  unfold entropyCached
  rw [he]
  simp only [World.withUser]
  cases h : w.entropyCache <;> simp [h]

/-- Sequencing. -/
theorem Blind.bind {α β : Type} {o : Objective V L W D'} {f : World V D L W D' → α × World V D L W D'}
    {g : α → World V D L W D' → β × World V D L W D'} (hf : Blind o f) (hg : ∀ a, Blind o (g a)) :
    Blind o (fun w => g (f w).1 (f w).2) := by
  intro w d q h
  obtain ⟨h1, h2, h3⟩ := hf w d q h
  have h4 : givenOf o ((f w).2.withUser d q) = givenOf o (f w).2 := by
    rw [givenOf_congr o h2 h3, ← h]; rfl
  obtain ⟨h5, h6, h7⟩ := hg (f w).1 (f w).2 d q h4
  refine ⟨?_, h6.trans h2, h7.trans h3⟩
  simp only
  rw [h1]
  exact h5

theorem Blind.pure {α : Type} {o : Objective V L W D'} (a : α) : Blind (D := D) o (fun w => (a, w)) :=
  fun _ _ _ _ => ⟨rfl, rfl, rfl⟩

theorem Blind.map {α β : Type} {o : Objective V L W D'} {f : World V D L W D' → α × World V D L W D'}
    (hf : Blind o f) (k : α → β) : Blind o (fun w => (k (f w).1, (f w).2)) :=
  hf.bind (g := fun a w => (k a, w)) fun a => Blind.pure (k a)

theorem Blind.of_eq {α : Type} {o : Objective V L W D'} {f g : World V D L W D' → α × World V D L W D'}
    (hg : Blind o g) (h : ∀ w, f w = g w) : Blind o f := by
  have : f = g := funext h
  rw [this]; exact hg

theorem objective_blind (menv : Env W D' L) (o : Objective V L W D') : Blind (D := D) o (objective menv o) := by
  cases hk : o.kind with
  | klpq => exact (Blind.pure (.error .notImplemented)).of_eq fun w => by simp [objective, hk]
  | elbo =>
    refine ((logJointTerm_blind menv o).bind (g := fun r w => match r with
      | .error e => (.error (.py e), w)
      | .ok l => (.ok (o.reduce (match (entropyCached o w).1 with
          | some h => l + h
          | none => l)), (entropyCached o w).2)) fun r => ?_).of_eq fun w => ?_
    · cases r with
      | error e => exact Blind.pure _
      | ok l => exact (entropyCached_blind o).map (β := Except ObjErr L) (fun h => .ok (o.reduce (match h with
          | some h => l + h
          | none => l)))
    · simp only [objective, hk]
      rcases logJointTerm menv o w with ⟨r, w1⟩
      cases r with
      | error e => rfl
      | ok l =>
        simp only
        rcases entropyCached o w1 with ⟨h, w2⟩
        cases h <;> rfl
  | iw =>
    refine ((logJointTerm_blind menv o).bind (g := fun r w => match r with
      | .error e => (.error (.py e), w)
      | .ok l => (match (entropyCached o w).1 with
          | some h => .ok (o.reduce (l + h))
          | none => .error (.py .valueError), (entropyCached o w).2)) fun r => ?_).of_eq fun w => ?_
    · cases r with
      | error e => exact Blind.pure _
      | ok l => exact (entropyCached_blind o).map (β := Except ObjErr L) (fun h => match h with
          | some h => .ok (o.reduce (l + h))
          | none => .error (.py .valueError))
    · simp only [objective, hk]
      rcases logJointTerm menv o w with ⟨r, w1⟩
      cases r with
      | error e => rfl
      | ok l =>
        simp only
        rcases entropyCached o w1 with ⟨h, w2⟩
        cases h <;> rfl

theorem accessTensor_blind (menv : Env W D' L) (o : Objective V L W D') :
    Blind (D := D) o (accessTensor menv o) := by
  have hread : Blind (D := D) o (fun w => (w.tensor, w)) := fun _ _ _ _ => ⟨rfl, rfl, rfl⟩
  have hset : ∀ t : L, Blind (D := D) o (fun w => ((.ok t : Except ObjErr L), { w with tensor := some t })) :=
    fun _ _ _ _ _ => ⟨rfl, rfl, rfl⟩
  refine (hread.bind (g := fun r w => match r with
    | some t => (.ok t, w)
    | none => (fun (r : Except ObjErr L) w => match r with
      | .error e => (.error e, w)
      | .ok t => (.ok t, { w with tensor := some t })) (objective menv o w).1 (objective menv o w).2)
      fun r => ?_).of_eq fun w => ?_
  · cases r with
    | some t => exact Blind.pure _
    | none =>
      refine (objective_blind menv o).bind (β := Except ObjErr L) (g := fun (r : Except ObjErr L) w => match r with
        | .error e => (.error e, w)
        | .ok t => (.ok t, { w with tensor := some t })) fun r => ?_
      cases r with
      | error e => exact Blind.pure _
      | ok t => exact hset t
  · unfold accessTensor
    simp only
    cases w.tensor with
    | some t => rfl
    | none =>
      simp only
      rcases objective menv o w with ⟨r, w1⟩
      cases r <;> rfl

theorem sgvb_blind (menv : Env W D' L) (o : Objective V L W D') : Blind (D := D) o (VObj.sgvb menv o) := by
  by_cases hk : o.kind = .klpq
  · exact (Blind.pure (.error (.py .attributeError))).of_eq fun w => by simp [VObj.sgvb, hk]
  · refine ((accessTensor_blind menv o).bind (g := fun r w => (match r with
      | .error e => .error e
      | .ok t => .ok (-t), w)) fun r => Blind.pure _).of_eq fun w => ?_
    unfold VObj.sgvb
    cases hkk : o.kind <;> simp [hkk] at hk ⊢ <;>
      (rcases accessTensor menv o w with ⟨r, w1⟩; cases r <;> rfl)

theorem estimator_blind (menv : Env W D' L) (o : Objective V L W D') (cost : L → L → L) :
    Blind (D := D) o (fun w => VObj.estimator menv o w cost) := by
  by_cases hk : o.kind = .elbo
  · exact (Blind.pure (.error (.py .attributeError))).of_eq fun w => by simp [VObj.estimator, hk]
  · refine ((logJointTerm_blind menv o).bind (g := fun r w => match r with
      | .error e => (.error (.py e), w)
      | .ok l => (fun (h : Option L) w => match h with
        | none => (.error (.py .valueError), w)
        | some h => (match (entropyCached o w).1 with
          | none => .error (.py .valueError)
          | some h' => .ok (cost (l + h) h'), (entropyCached o w).2))
          (entropyCached o w).1 (entropyCached o w).2) fun r => ?_).of_eq fun w => ?_
    · cases r with
      | error e => exact Blind.pure _
      | ok l =>
        refine (entropyCached_blind o).bind (β := Except ObjErr L) (g := fun (h : Option L) w => match h with
          | none => (.error (.py .valueError), w)
          | some h => (match (entropyCached o w).1 with
            | none => .error (.py .valueError)
            | some h' => .ok (cost (l + h) h'), (entropyCached o w).2)) fun h => ?_
        cases h with
        | none => exact Blind.pure _
        | some h => exact (entropyCached_blind o).map (β := Except ObjErr L) (fun h' => match h' with
            | none => .error (.py .valueError)
            | some h' => .ok (cost (l + h) h'))
    · unfold VObj.estimator
      cases hkk : o.kind <;> simp only [hkk] at hk ⊢ <;> first | (simp at hk; done) | skip
      all_goals
        rcases logJointTerm menv o w with ⟨r, w1⟩
        cases r with
        | error e => rfl
        | ok l =>
          simp only
          rcases entropyCached o w1 with ⟨h, w2⟩
          cases h with
          | none => rfl
          | some h =>
            simp only
            rcases entropyCached o w2 with ⟨h', w3⟩
            cases h' <;> rfl

theorem reinforce_blind (menv : Env W D' L) (o : Objective V L W D') (vr : Bool) (cost : L → L → L → L) :
    Blind (D := D) o (fun w => VObj.reinforce menv o w vr cost) := by
  by_cases hk : o.kind = .elbo
  swap
  · refine (Blind.pure (.error (.py .attributeError))).of_eq fun w => ?_
    unfold VObj.reinforce
    cases hkk : o.kind <;> simp [hkk] at hk ⊢
  · have hread : Blind (D := D) o (fun w => (w.movingMean, w)) := fun _ _ _ _ => ⟨rfl, rfl, rfl⟩
    have hset : Blind (D := D) o (fun w => ((), { w with movingMean := w.movingMean || vr })) :=
      fun _ _ _ _ => ⟨rfl, rfl, rfl⟩
    let g4 : L → L → Except Err L → World V D L W D' → Except ObjErr L × World V D L W D' := fun l h r w => match r with
      | .error e => (.error (.py e), w)
      | .ok l' => (match (entropyCached o w).1 with
        | none => .error (.py .valueError)
        | some h' => .ok (cost (l + h) l' h'), (entropyCached o w).2)
    have b4 : ∀ l h r, Blind (D := D) o (g4 l h r) := by
      intro l h r
      cases r with
      | error e => exact Blind.pure _
      | ok l' => exact (entropyCached_blind o).map (β := Except ObjErr L) (fun h' => match h' with
          | none => .error (.py .valueError)
          | some h' => .ok (cost (l + h) l' h'))
    let g3 : L → L → Bool → World V D L W D' → Except ObjErr L × World V D L W D' := fun l h mm w =>
      if vr && mm then (.error (.py .valueError), w)
      else g4 l h (logJointTerm menv o { w with movingMean := w.movingMean || vr }).1
        (logJointTerm menv o { w with movingMean := w.movingMean || vr }).2
    have b3 : ∀ l h mm, Blind (D := D) o (g3 l h mm) := by
      intro l h mm
      by_cases hc : (vr && mm) = true
      · exact (Blind.pure _).of_eq fun w => by simp only [g3]; rw [if_pos hc]
      · exact (hset.bind fun _ => (logJointTerm_blind menv o).bind (b4 l h)).of_eq fun w => by
          simp only [g3]; rw [if_neg hc]
    let g2 : L → Option L → World V D L W D' → Except ObjErr L × World V D L W D' := fun l h w => match h with
      | none => (.error (.py .valueError), w)
      | some h => g3 l h w.movingMean w
    have b2 : ∀ l h, Blind (D := D) o (g2 l h) := by
      intro l h
      cases h with
      | none => exact Blind.pure _
      | some h => exact hread.bind (b3 l h)
    let g1 : Except Err L → World V D L W D' → Except ObjErr L × World V D L W D' := fun r w => match r with
      | .error e => (.error (.py e), w)
      | .ok l => g2 l (entropyCached o w).1 (entropyCached o w).2
    have b1 : ∀ r, Blind (D := D) o (g1 r) := by
      intro r
      cases r with
      | error e => exact Blind.pure _
      | ok l => exact (entropyCached_blind o).bind (b2 l)
    refine ((logJointTerm_blind menv o).bind b1).of_eq fun w => ?_
    simp only [VObj.reinforce, hk, g1]
    rcases logJointTerm menv o w with ⟨r, w1⟩
    cases r with
    | error e => rfl
    | ok l =>
      simp only [g2]
      rcases entropyCached o w1 with ⟨h, w2⟩
      cases h with
      | none => rfl
      | some h =>
        simp only [g3]
        split
        · rfl
        · simp only [g4]
          rcases logJointTerm menv o { w2 with movingMean := w2.movingMean || vr } with ⟨r, w4⟩
          cases r with
          | error e => rfl
          | ok l' =>
            simp only
            rcases entropyCached o w4 with ⟨h', w5⟩
            cases h' <;> rfl

theorem step_blind (env : Env V D L) (menv : Env W D' L) (o : Objective V L W D') (op : OOp V D L W D')
    (hop : op.uses = true) : Blind o (fun w => OOp.step env menv o w op) := by
  cases op with
  | setDict => simp [OOp.uses] at hop
  | netOp => simp [OOp.uses] at hop
  | bn =>
    refine ((accessBn_blind o).bind (g := fun r w => (match r with
      | .ok b => .bn b
      | .error e => .raised (.py e), w)) fun r => Blind.pure _).of_eq fun w => ?_
    simp only [OOp.step]
    rcases accessBn o w with ⟨r, w1⟩
    cases r <;> rfl
  | tensor => exact ((accessTensor_blind menv o).bind fun r => Blind.pure (OOut.of r)).of_eq fun w => rfl
  | sgvb => exact ((sgvb_blind menv o).bind fun r => Blind.pure (OOut.of r)).of_eq fun w => rfl
  | estimator c => exact ((estimator_blind menv o c).bind fun r => Blind.pure (OOut.of r)).of_eq fun w => rfl
  | reinforce vr c => exact ((reinforce_blind menv o vr c).bind fun r => Blind.pure (OOut.of r)).of_eq fun w => rfl
  | bnOp op => exact fun _ _ _ _ => ⟨rfl, rfl, rfl⟩

/-! ## The values given to the model never change -/

/-- The inputs that are nodes of the variational net have been sampled. -/
structure Sampled (env : Env V D L) (o : Objective V L W D') (w : World V D L W D') : Prop where
  inv : ∀ q, w.q = some q → Inv env q
  node : ∀ n id, (n, VIn.node id) ∈ o.vInputs → ∃ q t, w.q = some q ∧ HasValue q id t

theorem value_stable (env : Env V D L) (q : State V D L) (op : Op V D L) (hq : Inv env q) (id : ℕ) (t : Tensor V)
    (h : HasValue q id t) :
    (VIn.node id : VIn V).value (some (BN.step env q op).2) = (VIn.node id : VIn V).value (some q) := by
  rw [value_of_hasValue.2 h, value_of_hasValue.2 (h.mono (step_inv env q op hq).2)]

theorem step_sampled (env : Env V D L) (menv : Env W D' L) (o : Objective V L W D') (w : World V D L W D')
    (hs : Sampled env o w) (op : OOp V D L W D') (hop : ∀ ref k t, op = .setDict ref k t → ref ≠ o.observedRef) :
    Sampled env o (OOp.step env menv o w op).2 ∧ givenOf o (OOp.step env menv o w op).2 = givenOf o w := by
  by_cases hu : op.uses = true
  · obtain ⟨_, h2, h3⟩ := step_blind env menv o op hu w w.dicts w.q rfl
    simp only at h2 h3
    exact ⟨⟨fun q hq => hs.inv q (by rw [← h3]; exact hq), fun n id hi => by rw [h3]; exact hs.node n id hi⟩,
      givenOf_congr o h2 h3⟩
  · cases op <;> simp [OOp.uses] at hu
    · rename_i ref k t
      refine ⟨⟨hs.inv, hs.node⟩, ?_⟩
      have := hop ref k t rfl
      simp only [givenOf, Objective.attrs, OOp.step]
      rw [List.getElem?_modify]
      simp [this]
    · rename_i op
      simp only [OOp.step]
      constructor
      · constructor
        · intro q hq
          simp only [Option.map_eq_some_iff] at hq
          obtain ⟨q0, h0, rfl⟩ := hq
          exact (step_inv env q0 op (hs.inv q0 h0)).1
        · intro n id hi
          obtain ⟨q, t, h1, h2⟩ := hs.node n id hi
          exact ⟨_, t, by simp only [h1, Option.map_some], h2.mono (step_inv env q op (hs.inv q h1)).2⟩
      · simp only [givenOf, Objective.attrs, VObj.given]
        congr 2
        apply List.map_congr_left
        rintro ⟨n, i⟩ hi
        cases i with
        | tensor t => rfl
        | node id =>
          obtain ⟨q, t, h1, h2⟩ := hs.node n id hi
          simp only [h1, Option.map_some]
          rw [value_stable env q op (hs.inv q h1) id t h2]

theorem new_sampled (env : Env V D L) (kind : Kind) (reduce : L → L) (model : Model V L W D')
    (variational : Option (VArg V D L)) (hv : Made env variational) (latent : Option (Dict Name (Tensor V × L)))
    (dicts : List (Dict Name (Tensor V))) (ref calls : ℕ) (mm : Bool) (o : Objective V L W D') (w : World V D L W D')
    (h : new env kind reduce model variational latent dicts ref calls mm = .ok (o, w)) : Sampled env o w := by
  obtain ⟨v, q, hc, rfl, rfl⟩ := new_spec env kind reduce model variational latent dicts ref calls mm o w h
  cases variational with
  | none =>
    cases latent with
    | none => simp [construct] at hc
    | some l =>
      simp only [construct] at hc
      split at hc
      · simp at hc
      · simp only [Except.ok.injEq, Prod.mk.injEq] at hc
        obtain ⟨rfl, rfl⟩ := hc
        refine ⟨by simp, fun n id hi => ?_⟩
        simp at hi
  | some va =>
    cases va with
    | notNet => cases latent <;> simp [construct] at hc
    | net q0 =>
      cases latent with
      | some l => simp [construct] at hc
      | none =>
        obtain ⟨lo, m, ob, ops, rfl⟩ := hv q0 rfl
        have hinv := hist_inv env lo m ob ops
        obtain ⟨ins, ls, q1, hu, hq, hacc, hF, rfl⟩ := construct_spec env lo m ob ops _ v _ hc
        subst hq
        simp only [construct] at hc
        have hu' : unobserved (run env (State.init lo m ob) ops) (run env (State.init lo m ob) ops).nodes = .ok ins := hu
        simp only [hu'] at hc
        have hspec := comprehension_spec env (fun s (i : Name × ℕ) => objCondLogP env s i.2)
          (fun s i l => CondIs env s i.2 l) (fun s i hi => objCondLogP_spec env s i.2 hi)
          (fun s s' i a hA hP => hP.mono hA.toGrow) ins _ hinv
        refine ⟨fun q hq => ?_, fun n id hi => ?_⟩
        · cases hq
          rcases hc1 : comprehension (fun s (i : Name × ℕ) => objCondLogP env s i.2)
            (run env (State.init lo m ob) ops) ins with ⟨r, q2⟩
          have hspec1 := hspec.1
          rw [show hist env lo m ob ops = run env (State.init lo m ob) ops from rfl, hc1] at hspec1
          rw [hc1] at hc
          cases r with
          | error e => simp at hc
          | ok ls' =>
            simp only [Except.ok.injEq, Prod.mk.injEq, Option.some.injEq] at hc
            rw [← hc.2]; exact hspec1
        · simp only [List.mem_map, Prod.mk.injEq, VIn.node.injEq] at hi
          obtain ⟨⟨n', id'⟩, hmem, rfl, rfl⟩ := hi
          obtain ⟨k, hk, he⟩ := List.mem_iff_getElem.1 hmem
          have hk2 : k < ls.length := by rw [← hF.length_eq]; exact hk
          have := (List.forall₂_iff_get.1 hF).2 k hk hk2
          simp only [List.get_eq_getElem, he] at this
          obtain ⟨ob', t, ho, hv', _⟩ := this
          exact ⟨q1, t, rfl, ob', ho, hv'⟩

theorem history_user (env : Env V D L) (menv : Env W D' L) (o : Objective V L W D') (ops : List (OOp V D L W D'))
    (hops : ∀ ref k t, OOp.setDict ref k t ∈ ops → ref ≠ o.observedRef) (w : World V D L W D') (hs : Sampled env o w)
    (d : List (Dict Name (Tensor V))) (q : Option (State V D L)) (hg : givenOf o (w.withUser d q) = givenOf o w) :
    (history env menv o (w.withUser d q) (ops.filter OOp.uses)).1 =
      ((ops.zip (history env menv o w ops).1).filter (fun p => p.1.uses)).map Prod.snd := by
  induction ops generalizing w with
  | nil => rfl
  | cons op ops ih =>
    obtain ⟨hs', hg'⟩ := step_sampled env menv o w hs op (fun ref k t h => hops ref k t (by simp [h]))
    have hops' : ∀ ref k t, OOp.setDict ref k t ∈ ops → ref ≠ o.observedRef :=
      fun ref k t h => hops ref k t (by simp [h])
    by_cases hu : op.uses = true
    · obtain ⟨h1, h2, h3⟩ := step_blind env menv o op hu w d q hg
      simp only at h1 h2 h3
      have hg2 : givenOf o ((OOp.step env menv o w op).2.withUser d q) = givenOf o (OOp.step env menv o w op).2 := by
        rw [hg', ← hg]; rfl
      have := ih hops' _ hs' hg2
      simp only [List.filter_cons, hu, if_true, history, List.zip_cons_cons, List.map_cons, h1, this]
    · have h1 : (OOp.step env menv o w op).2.withUser d q = w.withUser d q := by
        cases op <;> simp [OOp.uses] at hu <;> rfl
      have hg2 : givenOf o ((OOp.step env menv o w op).2.withUser d q) = givenOf o (OOp.step env menv o w op).2 := by
        rw [h1, hg', hg]
      have := ih hops' _ hs' hg2
      rw [h1] at this
      simp only [List.filter_cons, hu, history, List.zip_cons_cons]
      simpa using this

/-- **C84.** What the caller does to their own dictionaries and to the variational net after they made the objective has no
effect on it: the uses of the objective show what they show in the history without these changes.  And the
observations it works with are those that the dictionary had when the objective was made. -/
theorem C84_arguments (env : Env V D L) (menv : Env W D' L) (kind : Kind) (reduce : L → L)
    (model : Model V L W D') (variational : Option (VArg V D L)) (hv : Made env variational)
    (latent : Option (Dict Name (Tensor V × L))) (dicts : List (Dict Name (Tensor V))) (ref calls : ℕ) (mm : Bool)
    (o : Objective V L W D') (w : World V D L W D')
    (hn : new env kind reduce model variational latent dicts ref calls mm = .ok (o, w))
    (ops : List (OOp V D L W D')) (hops : OwnDicts dicts.length ops) :
    (history env menv o w (ops.filter OOp.uses)).1 =
      ((ops.zip (history env menv o w ops).1).filter (fun p => p.1.uses)).map Prod.snd := by
  have hs := new_sampled env kind reduce model variational hv latent dicts ref calls mm o w hn
  obtain ⟨v, q, hc, rfl, rfl⟩ := new_spec env kind reduce model variational latent dicts ref calls mm o w hn
  exact history_user env menv _ ops (fun ref k t h => Nat.ne_of_lt (hops ref k t h)) _ hs _ _ rfl

/-! ## One log joint -/

/-- The log joint is known to be `l`. -/
def Known (o : Objective V L W D') (w : World V D L W D') (l : L) : Prop :=
  match o.model with
  | .func _ => w.logJointCache = some l
  | .net _ => ∃ b, w.bn = some b ∧ b.cache = some l

theorem Known.unique {o : Objective V L W D'} {w : World V D L W D'} {l l' : L} (h : Known o w l) (h' : Known o w l') :
    l = l' := by
  unfold Known at h h'
  split at h <;> rename_i heq <;> simp only [heq] at h'
  · rw [h] at h'; exact Option.some.inj h'
  · obtain ⟨b, h1, h2⟩ := h
    obtain ⟨b', h1', h2'⟩ := h'
    rw [h1] at h1'; cases h1'
    rw [h2] at h2'; exact Option.some.inj h2'

/-- The sum of the log probabilities of the latent variables. -/
def sumLogQ (o : Objective V L W D') : L := (o.vLogProbs.map Prod.snd).sum

/-- Invariant of the histories in which the caller does nothing to the model net. -/
structure KInv (menv : Env W D' L) (o : Objective V L W D') (g : Dict Name (Option (Tensor V))) (c : ℕ)
    (w : World V D L W D') : Prop where
  given : givenOf o w = g
  entropy : ∀ h, w.entropyCache = some h → h = entropyTerm (o.attrs w)
  tensor : ∀ t, w.tensor = some t → ∃ l, Known o w l ∧ t = o.reduce (l - sumLogQ o)
  calls : c ≤ w.calls
  func : ∀ f l, o.model = .func f → w.logJointCache = some l → ∃ k, c ≤ k ∧ k < w.calls ∧ f k g = .ok l
  net : ∀ observe b, o.model = .net observe → w.bn = some b →
    ∃ k b0 n, c ≤ k ∧ k < w.calls ∧ observe k g = .ok b0 ∧ b = run menv b0 (List.replicate n .logJoint)

theorem logJoint_of_cache (menv : Env W D' L) {b : State W D' L} {l : L} (h : b.cache = some l) :
    logJoint menv b = (.ok l, b) := by
  unfold BN.logJoint; rw [h]

theorem cache_of_logJoint (menv : Env W D' L) (b : State W D' L) (l : L) (h : (logJoint menv b).1 = .ok l) :
    (logJoint menv b).2.cache = some l := by
  unfold BN.logJoint at h ⊢
  cases hc : b.cache with
  | some l' =>
    simp only [hc, Except.ok.injEq] at h ⊢
    rw [h]
  | none =>
    simp only [hc] at h ⊢
    rcases hf : logJointFresh menv b with ⟨r, b'⟩
    rw [hf] at h
    cases r with
    | error e => simp at h
    | ok l' => simpa using h

theorem KInv.modelValue {menv : Env W D' L} {o : Objective V L W D'} {g : Dict Name (Option (Tensor V))} {c : ℕ}
    {w : World V D L W D'} (h : KInv menv o g c w) {l : L} (hk : Known o w l) :
    ModelValue menv o.model g c w.calls l := by
  unfold Known at hk
  unfold ModelValue
  split <;> rename_i heq <;> simp only [heq] at hk
  · exact h.func _ l heq hk
  · obtain ⟨b, h1, h2⟩ := hk
    obtain ⟨k, b0, n, h3, h4, h5, rfl⟩ := h.net _ b heq h1
    exact ⟨k, b0, n, h3, h4, h5, by rw [logJoint_of_cache menv h2]⟩

theorem run_snoc (menv : Env W D' L) (b : State W D' L) (n : ℕ) :
    (logJoint menv (run menv b (List.replicate n .logJoint))).2 = run menv b (List.replicate (n + 1) .logJoint) := by
  rw [run_logJoint, List.replicate_succ']
  simp [run, List.foldl_append]

/-- What `_log_joint_term` does to a state of such a history. -/
theorem logJointTerm_known (menv : Env W D' L) (o : Objective V L W D') (g : Dict Name (Option (Tensor V))) (c : ℕ)
    (w : World V D L W D') (h : KInv menv o g c w) :
    KInv menv o g c (logJointTerm menv o w).2 ∧ (∀ l, Known o w l → Known o (logJointTerm menv o w).2 l) ∧
      (∀ l, (logJointTerm menv o w).1 = .ok l → Known o (logJointTerm menv o w).2 l) := by
  obtain ⟨_, hd, hq⟩ := logJointTerm_blind menv o w w.dicts w.q rfl
  have hg : givenOf o (logJointTerm menv o w).2 = g := (givenOf_congr o hd hq).trans h.given
  have hten := logJointTerm_tensor menv o w
  have hec : (logJointTerm menv o w).2.entropyCache = w.entropyCache := by
    cases hm : o.model with
    | func f =>
      rw [logJointTerm_func menv o w f hm]
      split
      · rfl
      · split <;> rfl
    | net observe =>
      rw [logJointTerm_net menv o w observe hm]
      split
      · rfl
      · split <;> rfl
  have hcalls := Nat.le_trans h.calls (logJointTerm_evolves menv o w).callsLe
  have hpers : ∀ l, Known o w l → Known o (logJointTerm menv o w).2 l := by
    intro l hk
    unfold Known at hk ⊢
    cases hm : o.model with
    | func f =>
      simp only [hm] at hk ⊢
      rw [logJointTerm_func menv o w f hm, hk]
      exact hk
    | net observe =>
      simp only [hm] at hk ⊢
      obtain ⟨b, h1, h2⟩ := hk
      rw [logJointTerm_net menv o w observe hm, h1]
      simp only [logJoint_of_cache menv h2]
      exact ⟨b, rfl, h2⟩
  refine ⟨⟨hg, fun x hx => h.entropy x (by rw [← hec]; exact hx), fun t ht => ?_, hcalls, ?_, ?_⟩, hpers, ?_⟩
  · rw [hten] at ht
    obtain ⟨l, h1, h2⟩ := h.tensor t ht
    exact ⟨l, hpers l h1, h2⟩
  · intro f l hm hl
    rw [logJointTerm_func menv o w f hm] at hl ⊢
    cases hc : w.logJointCache with
    | some l' =>
      simp only [hc] at hl ⊢
      exact h.func f l hm (by rw [hc]; exact hl)
    | none =>
      simp only [hc, h.given] at hl ⊢
      cases hf : f w.calls g with
      | error e => simp [hf, hc] at hl
      | ok l' =>
        simp only [hf] at hl ⊢
        cases hl
        exact ⟨w.calls, h.calls, Nat.lt_succ_self _, hf⟩
  · intro observe b hm hb
    rw [logJointTerm_net menv o w observe hm] at hb ⊢
    cases hc : w.bn with
    | some b' =>
      simp only [hc, Option.some.injEq] at hb ⊢
      obtain ⟨k, b0, n, h1, h2, h3, rfl⟩ := h.net observe b' hm hc
      exact ⟨k, b0, n + 1, h1, h2, h3, by rw [← hb, run_snoc]⟩
    | none =>
      simp only [hc, h.given] at hb ⊢
      cases hf : observe w.calls g with
      | error e => simp [hf, hc] at hb
      | ok b' =>
        simp only [hf, Option.some.injEq] at hb ⊢
        exact ⟨w.calls, b', 1, h.calls, Nat.lt_succ_self _, hf, by rw [← hb, run_logJoint]; rfl⟩
  · intro l hl
    unfold Known
    cases hm : o.model with
    | func f =>
      simp only
      rw [logJointTerm_func menv o w f hm] at hl ⊢
      cases hc : w.logJointCache with
      | some l' => simp only [hc, Except.ok.injEq] at hl ⊢; rw [hl]
      | none =>
        simp only [hc] at hl ⊢
        cases hf : f w.calls (givenOf o w) with
        | error e => simp [hf] at hl
        | ok l' => simp only [hf, Except.ok.injEq] at hl ⊢; rw [hl]
    | net observe =>
      simp only
      rw [logJointTerm_net menv o w observe hm] at hl ⊢
      cases hc : w.bn with
      | some b => simp only [hc] at hl ⊢; exact ⟨_, rfl, cache_of_logJoint menv b l hl⟩
      | none =>
        simp only [hc] at hl ⊢
        cases hf : observe w.calls (givenOf o w) with
        | error e => simp [hf] at hl
        | ok b => simp only [hf] at hl ⊢; exact ⟨_, rfl, cache_of_logJoint menv b l hl⟩

/-- What `_entropy_term` does to a state of such a history. -/
theorem entropyCached_known (menv : Env W D' L) (o : Objective V L W D') (g : Dict Name (Option (Tensor V))) (c : ℕ)
    (w : World V D L W D') (h : KInv menv o g c w) :
    KInv menv o g c (entropyCached o w).2 ∧ (∀ l, Known o w l → Known o (entropyCached o w).2 l) ∧
      (entropyCached o w).1 = entropyTerm (o.attrs w) := by
  unfold entropyCached
  cases hc : w.entropyCache with
  | some x => exact ⟨h, fun _ h => h, h.entropy x hc⟩
  | none =>
    exact ⟨⟨h.given, fun x hx => by cases hx; rfl, h.tensor, h.calls, h.func, h.net⟩, fun _ h => h, rfl⟩

theorem entropyTerm_attrs (o : Objective V L W D') (w : World V D L W D') :
    (∀ x, entropyTerm (o.attrs w) = some x → x = -sumLogQ o) ∧ (entropyTerm (o.attrs w) = none → sumLogQ o = 0) := by
  unfold entropyTerm
  split <;> rename_i hlen
  · exact ⟨fun x hx => (Option.some.inj hx).symm, by simp⟩
  · refine ⟨by simp, fun _ => ?_⟩
    have : o.vLogProbs = [] := List.length_eq_zero_iff.1 (by simpa [Objective.attrs] using hlen)
    simp [sumLogQ, this]

/-- What an action does to a state of such a history, and what it shows. -/
theorem step_known (env : Env V D L) (menv : Env W D' L) (o : Objective V L W D') (g : Dict Name (Option (Tensor V)))
    (c : ℕ) (w : World V D L W D') (h : KInv menv o g c w) (hs : Sampled env o w) (op : OOp V D L W D')
    (hb : op.onModel = false) (hop : ∀ ref k t, op = .setDict ref k t → ref ≠ o.observedRef) :
    KInv menv o g c (OOp.step env menv o w op).2 ∧
      (∀ l, Known o w l → Known o (OOp.step env menv o w op).2 l) ∧
      (∀ t, (OOp.step env menv o w op).1 = .val t → ∃ l, Known o (OOp.step env menv o w op).2 l ∧
        Says o l (sumLogQ o) op (.val t)) := by
  have hgiven := (step_sampled env menv o w hs op hop).2
  have hobj : ∀ w : World V D L W D', KInv menv o g c w → KInv menv o g c (objective menv o w).2 ∧
      (∀ l, Known o w l → Known o (objective menv o w).2 l) ∧
      (∀ t, (objective menv o w).1 = .ok t → ∃ l, Known o (objective menv o w).2 l ∧ t = o.reduce (l - sumLogQ o)) := by
    intro w h
    obtain ⟨h1, h2, h3⟩ := logJointTerm_known menv o g c w h
    unfold objective
    rcases hl : logJointTerm menv o w with ⟨r, w1⟩
    rw [hl] at h1 h2 h3
    cases hk : o.kind <;> simp only
    · cases r with
      | error e => exact ⟨h1, h2, by simp⟩
      | ok l =>
        obtain ⟨h4, h5, h6⟩ := entropyCached_known menv o g c w1 h1
        rcases he : entropyCached o w1 with ⟨x, w2⟩
        rw [he] at h4 h5 h6
        simp only [he]
        cases x with
        | none =>
          refine ⟨h4, fun l hl => h5 l (h2 l hl), fun t ht => ⟨l, h5 l (h3 l rfl), ?_⟩⟩
          simp only [Except.ok.injEq] at ht
          rw [← ht, (entropyTerm_attrs o w1).2 h6.symm, sub_zero]
        | some x =>
          refine ⟨h4, fun l hl => h5 l (h2 l hl), fun t ht => ⟨l, h5 l (h3 l rfl), ?_⟩⟩
          simp only [Except.ok.injEq] at ht
          rw [← ht, (entropyTerm_attrs o w1).1 x h6.symm, sub_eq_add_neg]
    · cases r with
      | error e => exact ⟨h1, h2, by simp⟩
      | ok l =>
        obtain ⟨h4, h5, h6⟩ := entropyCached_known menv o g c w1 h1
        rcases he : entropyCached o w1 with ⟨x, w2⟩
        rw [he] at h4 h5 h6
        simp only [he]
        cases x with
        | none => exact ⟨h4, fun l hl => h5 l (h2 l hl), by simp⟩
        | some x =>
          refine ⟨h4, fun l hl => h5 l (h2 l hl), fun t ht => ⟨l, h5 l (h3 l rfl), ?_⟩⟩
          simp only [Except.ok.injEq] at ht
          rw [← ht, (entropyTerm_attrs o w1).1 x h6.symm, sub_eq_add_neg]
    · exact ⟨h, fun _ h => h, by simp⟩
  have hT : KInv menv o g c (accessTensor menv o w).2 ∧
      (∀ l, Known o w l → Known o (accessTensor menv o w).2 l) ∧
      (∀ t, (accessTensor menv o w).1 = .ok t →
        ∃ l, Known o (accessTensor menv o w).2 l ∧ t = o.reduce (l - sumLogQ o)) := by
    unfold accessTensor
    cases ht : w.tensor with
    | some t' =>
      refine ⟨h, fun _ h => h, fun t h' => ?_⟩
      simp only [Except.ok.injEq] at h'
      exact h' ▸ h.tensor t' ht
    | none =>
      simp only
      obtain ⟨h1, h2, h3⟩ := hobj w h
      rcases hl : objective menv o w with ⟨r, w1⟩
      rw [hl] at h1 h2 h3
      cases r with
      | error e => exact ⟨h1, h2, by simp⟩
      | ok t =>
        obtain ⟨l, h4, h5⟩ := h3 t rfl
        refine ⟨⟨h1.given, h1.entropy, fun t' ht' => ?_, h1.calls, h1.func, h1.net⟩, h2, fun t' ht' => ⟨l, h4, ?_⟩⟩
        · simp only [Option.some.injEq] at ht'
          exact ⟨l, h4, ht' ▸ h5⟩
        · simp only [Except.ok.injEq] at ht'
          rw [← ht']; exact h5
  cases op with
  | bnOp => simp [OOp.onModel] at hb
  | setDict ref k t =>
    exact ⟨⟨hgiven.trans h.given, h.entropy, h.tensor, h.calls, h.func, h.net⟩, fun _ h => h, by simp [OOp.step]⟩
  | netOp op =>
    exact ⟨⟨hgiven.trans h.given, h.entropy, h.tensor, h.calls, h.func, h.net⟩, fun _ h => h, by simp [OOp.step]⟩
  | bn =>
    simp only [OOp.step]
    cases hm : o.model with
    | func f =>
      simp only [accessBn, hm]
      exact ⟨h, fun _ h => h, by simp⟩
    | net observe =>
      rw [accessBn_net o w observe hm]
      cases hbn : w.bn with
      | some b => exact ⟨h, fun _ h => h, by simp⟩
      | none =>
        simp only
        rw [h.given]
        have hno : ∀ l, ¬ Known o w l := by
          intro l hk
          simp only [Known, hm] at hk
          obtain ⟨b', h1, _⟩ := hk
          rw [hbn] at h1; cases h1
        cases hf : observe w.calls g with
        | error e =>
          refine ⟨⟨h.given, h.entropy, fun t ht => ?_, Nat.le_succ_of_le h.calls, fun f l hm' => ?_,
            fun f b _ hb' => ?_⟩, fun l hl => absurd hl (hno l), by simp⟩
          · obtain ⟨l, hl, _⟩ := h.tensor t ht
            exact absurd hl (hno l)
          · rw [hm] at hm'; cases hm'
          · cases hb'
        | ok b =>
          refine ⟨⟨h.given, h.entropy, fun t ht => ?_, Nat.le_succ_of_le h.calls, fun f l hm' => ?_,
            fun ob b' hm' hb' => ?_⟩, fun l hl => absurd hl (hno l), by simp⟩
          · obtain ⟨l, hl, _⟩ := h.tensor t ht
            exact absurd hl (hno l)
          · rw [hm] at hm'; cases hm'
          · rw [hm] at hm'; cases hm'
            simp only [Option.some.injEq] at hb'
            exact ⟨w.calls, b, 0, h.calls, Nat.lt_succ_self _, hf, by rw [← hb']; rfl⟩
  | tensor =>
    refine ⟨hT.1, hT.2.1, fun t ht => ?_⟩
    simp only [OOp.step] at ht
    cases hr : (accessTensor menv o w).1 with
    | error e => simp [hr, OOut.of] at ht
    | ok t' =>
      simp only [hr, OOut.of, OOut.val.injEq] at ht
      subst ht
      obtain ⟨l, h1, h2⟩ := hT.2.2 t' hr
      exact ⟨l, h1, fun t ht => by cases ht; exact h2⟩
  | sgvb =>
    simp only [OOp.step]
    unfold VObj.sgvb
    rcases hr : accessTensor menv o w with ⟨r, w1⟩
    rw [hr] at hT
    by_cases hk : o.kind = .klpq
    · rw [hk]; exact ⟨h, fun _ h => h, by simp [OOut.of]⟩
    · cases hkk : o.kind <;> simp only [hkk] at hk ⊢ <;> first | (simp at hk; done) | skip
      all_goals
        cases r with
        | error e => exact ⟨hT.1, hT.2.1, by simp [OOut.of]⟩
        | ok t' =>
          refine ⟨hT.1, hT.2.1, fun t ht => ?_⟩
          simp only [OOut.of, OOut.val.injEq] at ht
          obtain ⟨l, h1, h2⟩ := hT.2.2 t' rfl
          exact ⟨l, h1, fun t'' ht'' => by cases ht''; rw [← ht, h2]⟩
  | estimator cost =>
    simp only [OOp.step]
    unfold VObj.estimator
    by_cases hk : o.kind = .elbo
    · rw [hk]; exact ⟨h, fun _ h => h, by simp [OOut.of]⟩
    · obtain ⟨h1, h2, h3⟩ := logJointTerm_known menv o g c w h
      rcases hl : logJointTerm menv o w with ⟨r, w1⟩
      rw [hl] at h1 h2 h3
      cases hkk : o.kind <;> simp only [hkk] at hk ⊢ <;> first | (simp at hk; done) | skip
      all_goals
        cases r with
        | error e => exact ⟨h1, h2, by simp [OOut.of]⟩
        | ok l =>
          obtain ⟨h4, h5, h6⟩ := entropyCached_known menv o g c w1 h1
          rcases he : entropyCached o w1 with ⟨x, w2⟩
          rw [he] at h4 h5 h6
          simp only [he]
          cases x with
          | none => exact ⟨h4, fun l hl => h5 l (h2 l hl), by simp [OOut.of]⟩
          | some x =>
            obtain ⟨h7, h8, h9⟩ := entropyCached_known menv o g c w2 h4
            rcases he' : entropyCached o w2 with ⟨y, w3⟩
            rw [he'] at h7 h8 h9
            simp only [he']
            cases y with
            | none => exact ⟨h7, fun l hl => h8 l (h5 l (h2 l hl)), by simp [OOut.of]⟩
            | some y =>
              refine ⟨h7, fun l hl => h8 l (h5 l (h2 l hl)), fun t ht => ⟨l, h8 l (h5 l (h3 l rfl)), fun t' ht' => ?_⟩⟩
              cases ht'
              simp only [OOut.of, OOut.val.injEq] at ht
              rw [← ht, (entropyTerm_attrs o w1).1 x h6.symm, (entropyTerm_attrs o w2).1 y h9.symm, sub_eq_add_neg]
  | reinforce vr cost =>
    simp only [OOp.step]
    unfold VObj.reinforce
    obtain ⟨h1, h2, h3⟩ := logJointTerm_known menv o g c w h
    rcases hl : logJointTerm menv o w with ⟨r, w1⟩
    rw [hl] at h1 h2 h3
    cases hkk : o.kind <;> simp only <;> first | exact ⟨h, fun _ h => h, by simp [OOut.of]⟩ | skip
    cases r with
    | error e => exact ⟨h1, h2, by simp [OOut.of]⟩
    | ok l =>
      obtain ⟨h4, h5, h6⟩ := entropyCached_known menv o g c w1 h1
      rcases he : entropyCached o w1 with ⟨x, w2⟩
      rw [he] at h4 h5 h6
      simp only [he]
      cases x with
      | none => exact ⟨h4, fun l hl => h5 l (h2 l hl), by simp [OOut.of]⟩
      | some x =>
        simp only
        split
        · exact ⟨h4, fun l hl => h5 l (h2 l hl), by simp [OOut.of]⟩
        · have h4' : KInv menv o g c { w2 with movingMean := w2.movingMean || vr } :=
            ⟨h4.given, h4.entropy, h4.tensor, h4.calls, h4.func, h4.net⟩
          have h5' : ∀ l, Known o w2 l → Known o { w2 with movingMean := w2.movingMean || vr } l := fun l hl => hl
          obtain ⟨h7, h8, h9⟩ := logJointTerm_known menv o g c _ h4'
          rcases hl' : logJointTerm menv o { w2 with movingMean := w2.movingMean || vr } with ⟨r', w4⟩
          rw [hl'] at h7 h8 h9
          cases r' with
          | error e => exact ⟨h7, fun l hl => h8 l (h5' l (h5 l (h2 l hl))), by simp [OOut.of]⟩
          | ok l' =>
            have hll : l = l' := Known.unique (h8 l (h5' l (h5 l (h3 l rfl)))) (h9 l' rfl)
            obtain ⟨h10, h11, h12⟩ := entropyCached_known menv o g c w4 h7
            rcases he' : entropyCached o w4 with ⟨y, w5⟩
            rw [he'] at h10 h11 h12
            simp only [he']
            cases y with
            | none => exact ⟨h10, fun l hl => h11 l (h8 l (h5' l (h5 l (h2 l hl)))), by simp [OOut.of]⟩
            | some y =>
              refine ⟨h10, fun l hl => h11 l (h8 l (h5' l (h5 l (h2 l hl)))), fun t ht => ⟨l', h11 l' (h9 l' rfl),
                fun t' ht' => ?_⟩⟩
              cases ht'
              simp only [OOut.of, OOut.val.injEq] at ht
              rw [← ht, (entropyTerm_attrs o w1).1 x h6.symm, (entropyTerm_attrs o w4).1 y h12.symm, hll,
                sub_eq_add_neg]

theorem history_known (env : Env V D L) (menv : Env W D' L) (o : Objective V L W D') (g : Dict Name (Option (Tensor V)))
    (c : ℕ) (ops : List (OOp V D L W D')) (hops : ∀ ref k t, OOp.setDict ref k t ∈ ops → ref ≠ o.observedRef)
    (hb : ∀ op ∈ ops, op.onModel = false) (w : World V D L W D') (h : KInv menv o g c w) (hs : Sampled env o w) :
    ∃ l, (∀ l', Known o w l' → l' = l) ∧
      (∀ p ∈ ops.zip (history env menv o w ops).1, Says o l (sumLogQ o) p.1 p.2) ∧
      ((∃ p ∈ ops.zip (history env menv o w ops).1, ∃ t, p.2 = .val t) →
        ModelValue menv o.model g c (history env menv o w ops).2.calls l) := by
  induction ops generalizing w with
  | nil =>
    by_cases hk : ∃ l, Known o w l
    · obtain ⟨l, hl⟩ := hk
      exact ⟨l, fun l' h' => h'.unique hl, by simp, by simp⟩
    · exact ⟨0, fun l' h' => absurd ⟨l', h'⟩ hk, by simp, by simp⟩
  | cons op ops ih =>
    have hop1 : ∀ ref k t, op = .setDict ref k t → ref ≠ o.observedRef := fun ref k t h => hops ref k t (by simp [h])
    obtain ⟨h1, h2, h3⟩ := step_known env menv o g c w h hs op (hb op (by simp)) hop1
    obtain ⟨l, h4, h5, h6⟩ := ih (fun ref k t h => hops ref k t (by simp [h])) (fun op h => hb op (by simp [h])) _ h1
      (step_sampled env menv o w hs op hop1).1
    refine ⟨l, fun l' hl' => h4 l' (h2 l' hl'), ?_, ?_⟩
    · intro p hp
      simp only [history, List.zip_cons_cons, List.mem_cons] at hp
      rcases hp with rfl | hp
      · intro t ht
        obtain ⟨l', hk, hsay⟩ := h3 t ht
        rw [← h4 l' hk]
        exact hsay t rfl
      · exact h5 p hp
    · rintro ⟨p, hp, t, ht⟩
      simp only [history, List.zip_cons_cons, List.mem_cons] at hp
      rcases hp with rfl | hp
      · obtain ⟨l', hk, _⟩ := h3 t ht
        have hl := h4 l' hk
        subst hl
        have hmono := (history_evolves env menv o ops (OOp.step env menv o w op).2).callsLe
        have := h1.modelValue hk
        simp only [history]
        unfold ModelValue at this ⊢
        split <;> rename_i heq <;> simp only [heq] at this
        · obtain ⟨k, a, b, d⟩ := this
          exact ⟨k, a, Nat.lt_of_lt_of_le b hmono, d⟩
        · obtain ⟨k, b0, n, a, b, d⟩ := this
          exact ⟨k, b0, n, a, Nat.lt_of_lt_of_le b hmono, d⟩
      · exact h6 ⟨p, hp, t, ht⟩

/-- **C84.** One objective, one log joint.  In every history in which the caller does nothing to the model net, all
values that `tensor`, `sgvb()`, `reinforce()`, `vimco()` and `importance()` show are computed from one and the same log
joint `l` and from the log probabilities recorded when the objective was made; and `l` is the log joint of the
caller's model at the latent values and observations that the objective had when it was made. -/
theorem C84_one_log_joint (env : Env V D L) (menv : Env W D' L) (kind : Kind) (reduce : L → L)
    (model : Model V L W D') (variational : Option (VArg V D L)) (hv : Made env variational)
    (latent : Option (Dict Name (Tensor V × L))) (dicts : List (Dict Name (Tensor V))) (ref calls : ℕ) (mm : Bool)
    (o : Objective V L W D') (w : World V D L W D')
    (hn : new env kind reduce model variational latent dicts ref calls mm = .ok (o, w))
    (ops : List (OOp V D L W D')) (hops : OwnDicts dicts.length ops) (hb : ∀ op ∈ ops, op.onModel = false) :
    ∃ v q l, construct env variational latent ((dicts[ref]?).getD []) = .ok (v, q) ∧
      (∀ p ∈ ops.zip (history env menv o w ops).1, Says o l (v.vLogProbs.map Prod.snd).sum p.1 p.2) ∧
      ((∃ p ∈ ops.zip (history env menv o w ops).1, ∃ t, p.2 = .val t) →
        ModelValue menv model (v.given q) calls (history env menv o w ops).2.calls l) := by
  have hs := new_sampled env kind reduce model variational hv latent dicts ref calls mm o w hn
  obtain ⟨v, q, hc, rfl, rfl⟩ := new_spec env kind reduce model variational latent dicts ref calls mm o w hn
  have hgiven : givenOf (⟨kind, reduce, model, v.vInputs, v.vLogProbs, dicts.length⟩ : Objective V L W D')
      (⟨dicts ++ [v.observed], q, none, none, none, none, calls, mm⟩ : World V D L W D') = v.given q := by
    simp [givenOf, Objective.attrs]
  obtain ⟨l, _, h2, h3⟩ := history_known env menv _ (v.given q) calls ops
    (fun ref k t h => Nat.ne_of_lt (hops ref k t h)) hb _
    ⟨hgiven, by simp, by simp, Nat.le_refl _, by simp, by simp⟩ hs
  exact ⟨v, q, l, hc, h2, h3⟩

/-- **C84.** A new objective works: if the first call of the model gives a log joint, `tensor` and `sgvb()` give the
objective and its negative, and each estimator gives its cost; only `elbo` does without latent variables, and
`reinforce()` with variance reduction needs that the graph has no variable `moving_mean`. -/
theorem C84_first_use (env : Env V D L) (menv : Env W D' L) (kind : Kind) (reduce : L → L)
    (model : Model V L W D') (variational : Option (VArg V D L)) (latent : Option (Dict Name (Tensor V × L)))
    (dicts : List (Dict Name (Tensor V))) (ref calls : ℕ) (mm : Bool) (o : Objective V L W D') (w : World V D L W D')
    (hn : new env kind reduce model variational latent dicts ref calls mm = .ok (o, w))
    (v : VObj V L) (q : Option (State V D L))
    (hc : construct env variational latent ((dicts[ref]?).getD []) = .ok (v, q)) (l : L)
    (hl : FirstValue menv model (v.given q) calls l) :
    let lq := (v.vLogProbs.map Prod.snd).sum
    (kind = .elbo → (OOp.step env menv o w .tensor).1 = .val (reduce (l - lq)) ∧
      (OOp.step env menv o w .sgvb).1 = .val (-reduce (l - lq))) ∧
    (kind = .iw → v.vLogProbs ≠ [] → (OOp.step env menv o w .tensor).1 = .val (reduce (l - lq)) ∧
      (OOp.step env menv o w .sgvb).1 = .val (-reduce (l - lq))) ∧
    (kind ≠ .elbo → v.vLogProbs ≠ [] →
      ∀ cost, (OOp.step env menv o w (.estimator cost)).1 = .val (cost (l - lq) (-lq))) ∧
    (kind = .elbo → v.vLogProbs ≠ [] → ∀ vr cost, (vr && mm) = false →
      (OOp.step env menv o w (.reinforce vr cost)).1 = .val (cost (l - lq) l (-lq))) := by
  obtain ⟨v', q', hc', rfl, rfl⟩ := new_spec env kind reduce model variational latent dicts ref calls mm o w hn
  rw [hc] at hc'
  simp only [Except.ok.injEq, Prod.mk.injEq] at hc'
  obtain ⟨rfl, rfl⟩ := hc'
  intro lq
  generalize ho : (⟨kind, reduce, model, v.vInputs, v.vLogProbs, dicts.length⟩ : Objective V L W D') = o
  generalize hw : (⟨dicts ++ [v.observed], q, none, none, none, none, calls, mm⟩ : World V D L W D') = w
  have hg : givenOf o w = v.given q := by subst ho hw; simp [givenOf, Objective.attrs]
  have ok : o.kind = kind := by subst ho; rfl
  have om : o.model = model := by subst ho; rfl
  have ore : o.reduce = reduce := by subst ho; rfl
  have hlq : lq = sumLogQ o := by subst ho; rfl
  have hcalls : w.calls = calls := by subst hw; rfl
  have hent : ∀ w' : World V D L W D', v.vLogProbs ≠ [] → entropyTerm (o.attrs w') = some (-lq) := by
    intro w' hne
    have : (o.attrs w').vLogProbs = v.vLogProbs := by subst ho; rfl
    unfold entropyTerm
    rw [this, if_pos (List.length_pos_of_ne_nil hne)]
  -- the first log joint
  obtain ⟨w1, h1, hec, hmm, hk1⟩ : ∃ w1, logJointTerm menv o w = (.ok l, w1) ∧ w1.entropyCache = none ∧
      w1.movingMean = mm ∧ Known o w1 l := by
    cases hm : model with
    | func f =>
      rw [hm] at om hl
      have hl' : f calls (v.given q) = .ok l := hl
      refine ⟨{ w with calls := w.calls + 1, logJointCache := some l }, ?_, by subst hw; rfl, by subst hw; rfl, ?_⟩
      · rw [logJointTerm_func menv o w f om, hg, hcalls, hl', show w.logJointCache = none by subst hw; rfl]
      · simp [Known, om]
    | net observe =>
      rw [hm] at om hl
      obtain ⟨b, hb, hlj⟩ := hl
      refine ⟨{ w with bn := some (logJoint menv b).2, calls := w.calls + 1 }, ?_, by subst hw; rfl, by subst hw; rfl, ?_⟩
      · rw [logJointTerm_net menv o w observe om, hg, hcalls, hb, show w.bn = none by subst hw; rfl]
        simp only [hlj]
      · simp only [Known, om]
        exact ⟨_, rfl, cache_of_logJoint menv b l hlj⟩
  have he1 : entropyCached o w1 = (entropyTerm (o.attrs w1), { w1 with entropyCache := some (entropyTerm (o.attrs w1)) }) := by
    unfold entropyCached; rw [hec]
  have htn : w.tensor = none := by subst hw; rfl
  have hobj : (kind = .elbo ∨ kind = .iw ∧ v.vLogProbs ≠ []) → (accessTensor menv o w).1 = .ok (reduce (l - lq)) := by
    intro h
    unfold accessTensor
    rw [htn]
    simp only
    have : (objective menv o w).1 = .ok (reduce (l - lq)) := by
      rcases h with h | ⟨h, hne⟩
      · simp only [objective, ok, h, h1, he1, ore]
        have := entropyTerm_attrs o w1
        cases hx : entropyTerm (o.attrs w1) with
        | none => simp [hlq, this.2 hx]
        | some x => simp [hlq, this.1 x hx, sub_eq_add_neg]
      · simp only [objective, ok, h, h1, he1, ore, hent w1 hne, sub_eq_add_neg]
    rcases hx : objective menv o w with ⟨r, w2⟩
    rw [hx] at this
    simp only at this
    subst this
    rfl
  have hsg : (kind = .elbo ∨ kind = .iw ∧ v.vLogProbs ≠ []) → (VObj.sgvb menv o w).1 = .ok (-reduce (l - lq)) := by
    intro h
    have h2 := hobj h
    rcases hx : accessTensor menv o w with ⟨r, w2⟩
    rw [hx] at h2
    simp only at h2
    subst h2
    unfold VObj.sgvb
    rcases h with h | ⟨h, _⟩ <;> simp only [ok, h, hx]
  refine ⟨fun h => ⟨?_, ?_⟩, fun h hne => ⟨?_, ?_⟩, fun h hne cost => ?_, fun h hne vr cost hvr => ?_⟩
  · simp only [OOp.step, hobj (.inl h), OOut.of]
  · simp only [OOp.step, hsg (.inl h), OOut.of]
  · simp only [OOp.step, hobj (.inr ⟨h, hne⟩), OOut.of]
  · simp only [OOp.step, hsg (.inr ⟨h, hne⟩), OOut.of]
  · have he2 : entropyCached o { w1 with entropyCache := some (some (-lq)) } =
        (some (-lq), { w1 with entropyCache := some (some (-lq)) }) := rfl
    simp only [OOp.step, VObj.estimator]
    cases hkk : kind <;> simp only [hkk] at h ok <;> first | (simp at h; done) | skip
    all_goals
      rw [ok]
      simp only [h1, he1, hent w1 hne, he2, OOut.of, sub_eq_add_neg]
  · simp only [OOp.step, VObj.reinforce, ok, h, h1, he1, hent w1 hne, hmm, hvr]
    have hk2 : Known o { w1 with entropyCache := some (some (-lq)), movingMean := mm || vr } l := hk1
    obtain ⟨w3, h3, hec3⟩ : ∃ w3, logJointTerm menv o
        { w1 with entropyCache := some (some (-lq)), movingMean := mm || vr } = (.ok l, w3) ∧
        w3.entropyCache = some (some (-lq)) := by
      unfold Known at hk2
      cases hm : o.model with
      | func f =>
        simp only [hm] at hk2
        rw [logJointTerm_func menv o _ f hm]
        simp only [hk2]
        exact ⟨_, rfl, rfl⟩
      | net observe =>
        simp only [hm] at hk2
        obtain ⟨b, hb1, hb2⟩ := hk2
        rw [logJointTerm_net menv o _ observe hm]
        simp only [hb1, logJoint_of_cache menv hb2]
        exact ⟨_, rfl, rfl⟩
    have he3 : entropyCached o w3 = (some (-lq), w3) := by unfold entropyCached; rw [hec3]
    simp only [h3, he3, OOut.of, sub_eq_add_neg]
    simp

/-! ## What the classes refuse, and what goes wrong -/

/-- `klpq` has no value: in every history, each use as a tensor raises `NotImplementedError`, `sgvb()` does not exist, and
neither runs the model. -/
theorem C84_klpq (env : Env V D L) (menv : Env W D' L) (reduce : L → L)
    (model : Model V L W D') (variational : Option (VArg V D L)) (latent : Option (Dict Name (Tensor V × L)))
    (dicts : List (Dict Name (Tensor V))) (ref calls : ℕ) (mm : Bool) (o : Objective V L W D') (w : World V D L W D')
    (hn : new env .klpq reduce model variational latent dicts ref calls mm = .ok (o, w))
    (ops : List (OOp V D L W D')) :
    let w' := (history env menv o w ops).2
    OOp.step env menv o w' .tensor = (.raised .notImplemented, w') ∧
      OOp.step env menv o w' .sgvb = (.raised (.py .attributeError), w') := by
  have hk : o.kind = .klpq := by
    obtain ⟨v, q, _, rfl, _⟩ := new_spec env .klpq reduce model variational latent dicts ref calls mm o w hn
    rfl
  have h0 : w.tensor = none := by
    obtain ⟨v, q, _, _, rfl⟩ := new_spec env .klpq reduce model variational latent dicts ref calls mm o w hn
    rfl
  have hstep : ∀ (w : World V D L W D') (op : OOp V D L W D'), w.tensor = none →
      (OOp.step env menv o w op).2.tensor = none := by
    intro w op hw
    by_cases hu : op.uses = true
    · by_cases hb : op.onModel = false
      · refine calls_rel menv o (fun w w' => w.tensor = none → w'.tensor = none) (fun _ h => h)
          (fun _ _ _ h h' h0 => h' (h h0)) ?_ ?_ ?_ ?_ (fun _ h => h) env w op hu hb hw
        · intro w h; rw [accessBn_tensor]; exact h
        · intro w h; rw [logJointTerm_tensor]; exact h
        · intro w h; rw [entropyCached_tensor]; exact h
        · intro w t w' _ h; simp [objective, hk] at h
      · cases op <;> simp [OOp.onModel] at hb
        exact hw
    · cases op <;> simp [OOp.uses] at hu <;> exact hw
  have hh : ∀ (ops : List (OOp V D L W D')) (w : World V D L W D'), w.tensor = none →
      (history env menv o w ops).2.tensor = none := by
    intro ops
    induction ops with
    | nil => exact fun w h => h
    | cons op ops ih => exact fun w h => ih _ (hstep w op h)
  intro w'
  have hw' : w'.tensor = none := hh ops w h0
  constructor
  · simp [OOp.step, accessTensor, hw', objective, hk, OOut.of]
  · simp [OOp.step, VObj.sgvb, hk, OOut.of]

/-- A model function that raises leaves the objective as it was: the exception goes to the caller, and the next use runs
the model again. -/
theorem C84_retry (env : Env V D L) (menv : Env W D' L) (o : Objective V L W D') (w : World V D L W D') (e : Err)
    (hk : o.kind ≠ .klpq) (ht : w.tensor = none) (hr : ¬ ModelRan o w)
    (he : match o.model with
      | .func f => f w.calls ((o.attrs w).given w.q) = .error e
      | .net observe => observe w.calls ((o.attrs w).given w.q) = .error e) :
    OOp.step env menv o w .tensor = (.raised (.py e), { w with calls := w.calls + 1 }) := by
  have hl : logJointTerm menv o w = (.error e, { w with calls := w.calls + 1 }) := by
    cases hm : o.model with
    | func f =>
      simp only [hm] at he
      have hc : w.logJointCache = none := by simpa [ModelRan, hm] using hr
      rw [logJointTerm_func menv o w f hm, hc]
      have he' : f w.calls (givenOf o w) = .error e := he
      rw [he']
    | net observe =>
      simp only [hm] at he
      have hc : w.bn = none := by simpa [ModelRan, hm] using hr
      rw [logJointTerm_net menv o w observe hm, hc]
      have he' : observe w.calls (givenOf o w) = .error e := he
      rw [he']
  cases hkk : o.kind <;> simp [hkk] at hk <;> simp [OOp.step, accessTensor, ht, objective, hkk, hl, OOut.of]

/-- **Finding.** `reinforce()` with variance reduction works once per graph: after it has given a cost, every later call
raises, whatever is done in between (the source has a TODO). -/
theorem C84_reinforce_twice (env : Env V D L) (menv : Env W D' L) (o : Objective V L W D') (w : World V D L W D')
    (cost cost' : L → L → L → L) (t : L) (h : (OOp.step env menv o w (.reinforce true cost)).1 = .val t)
    (ops : List (OOp V D L W D')) :
    ∃ e, (OOp.step env menv o (history env menv o (OOp.step env menv o w (.reinforce true cost)).2 ops).2
      (.reinforce true cost')).1 = .raised (.py e) := by
  have hk : o.kind = .elbo := by
    cases hkk : o.kind <;> simp [OOp.step, VObj.reinforce, hkk, OOut.of] at h ⊢
  have hmm : (OOp.step env menv o w (.reinforce true cost)).2.movingMean = true := by
    simp only [OOp.step] at h ⊢
    unfold VObj.reinforce at h ⊢
    simp only [hk] at h ⊢
    rcases hl0 : logJointTerm menv o w with ⟨r, w1⟩
    rw [hl0] at h
    cases r with
    | error e => simp [OOut.of] at h
    | ok l =>
      simp only at h ⊢
      rcases he0 : entropyCached o w1 with ⟨x, w2⟩
      rw [he0] at h
      cases x with
      | none => simp [OOut.of] at h
      | some x =>
        simp only at h ⊢
        split at h
        · simp [OOut.of] at h
        · rename_i hc
          rw [if_neg hc]
          have h1 := (logJointTerm_evolves menv o { w2 with movingMean := w2.movingMean || true }).movingMean
            (by simp)
          rcases hl : logJointTerm menv o { w2 with movingMean := w2.movingMean || true } with ⟨r, w4⟩
          rw [hl] at h h1
          cases r with
          | error e => simp [OOut.of] at h
          | ok l' =>
            simp only at h ⊢
            have h2 := (entropyCached_evolves menv o w4).movingMean h1
            rcases he : entropyCached o w4 with ⟨y, w5⟩
            rw [he] at h2
            cases y <;> exact h2
  have hmm' := (history_evolves env menv o ops _).movingMean hmm
  generalize (history env menv o (OOp.step env menv o w (.reinforce true cost)).2 ops).2 = w' at hmm'
  simp only [OOp.step]
  unfold VObj.reinforce
  simp only [hk]
  have h1 := (logJointTerm_evolves menv o w').movingMean hmm'
  rcases hl : logJointTerm menv o w' with ⟨r, w1⟩
  rw [hl] at h1
  cases r with
  | error e => exact ⟨e, rfl⟩
  | ok l =>
    have h2 := (entropyCached_evolves menv o w1).movingMean h1
    rcases he : entropyCached o w1 with ⟨x, w2⟩
    rw [he] at h2
    simp only [he]
    cases x with
    | none => exact ⟨_, rfl⟩
    | some x =>
      simp only at h2
      simp only [h2, Bool.and_self, if_true]
      exact ⟨_, rfl⟩

end ZhuSuan.VObj

namespace ZhuSuan.VObj
open ZhuSuan.BN

/-- For the cases below: every node has log probability 7. -/
def sevenEnv {V : Type} : Env V Unit ℤ := ⟨fun _ v => some v, fun _ => true, fun _ _ => some 7⟩

/-- A model with the one node `x`, under the given observations. -/
def oneNode : Model ℕ ℤ (Tensor ℕ) Unit :=
  .net fun _ g => .ok (run sevenEnv (State.init (some g) none []) [.stochastic "x" ()])

/-- What a history shows as numbers. -/
def OOut.num {L W D' : Type} : OOut L W D' → Option L
  | .val l => some l
  | _ => none

/-- A concrete case: a variational net with the node `z`, `x` observed.  The objective is 7 − 7 = 0 every time; the
caller's changes to their dictionary and the net do nothing; the second `reinforce()` with variance reduction raises. -/
example : ∃ o w, new (sevenEnv (V := ℕ)) .elbo id oneNode
      (some (.net (run sevenEnv (State.init none none []) [.stochastic "z" ()]))) none [[("x", .ext 3)]] 0 0 false =
        .ok (o, w) ∧
    (history sevenEnv sevenEnv o w [.tensor, .setDict 0 "x" (.ext 4), .netOp (.stochastic "y" ()), .tensor,
      .reinforce true (fun s l h => s + l + h), .sgvb, .reinforce true (fun s _ _ => s)]).1.map OOut.num =
      [some 0, none, none, some 0, some 0, some 0, none] := by
  refine ⟨_, _, rfl, ?_⟩
  decide

/-- **Finding.** The parts of one objective can disagree: when the caller adds a node to `objective.bn` after they have
read the value, `tensor` and `sgvb()` stay at the old log joint (here 7) while `reinforce()` uses the new one (here 14), so
the restriction in `C84_one_log_joint` is needed. -/
theorem C84_stale_tensor : ∃ (o : Objective ℕ ℤ (Tensor ℕ) Unit) (w : World ℕ Unit ℤ (Tensor ℕ) Unit),
    new sevenEnv .elbo id oneNode none (some [("z", (.ext 1, 2))]) [[("x", .ext 3)]] 0 0 false = .ok (o, w) ∧
    (history sevenEnv sevenEnv o w [.tensor, .bnOp (.stochastic "y" ()), .tensor, .sgvb,
      .reinforce false (fun s _ _ => s)]).1.map OOut.num = [some (7 - 2), none, some (7 - 2), some (-(7 - 2)),
        some (14 - 2)] := by
  refine ⟨_, _, rfl, ?_⟩
  decide

/-- The hypotheses of `C84_retry` and of `C84_klpq` are met: a model function that fails at the first call and not at the
second. -/
example : ∃ o w, new (W := Unit) (D' := Unit) (sevenEnv (V := ℕ)) .iw id
      (.func fun k _ => if k = 0 then .error .valueError else .ok 5) none (some [("z", (.ext 1, 2))]) [] 0 0 false =
        .ok (o, w) ∧ ¬ ModelRan o w ∧
    (history sevenEnv sevenEnv o w [.tensor, .tensor, .estimator (fun s h => s + h), .bn]).1.map OOut.num =
      [none, some 3, some 1, none] := by
  refine ⟨_, _, rfl, by simp [ModelRan], ?_⟩
  decide

end ZhuSuan.VObj
