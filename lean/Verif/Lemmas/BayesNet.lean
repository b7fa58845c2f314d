import Mathlib.Data.List.Basic
import Mathlib.Data.List.Count
import Verif.Lemmas.Dict
import Verif.Spec.BayesNet

set_option linter.unusedSectionVars false
set_option autoImplicit false

namespace ZhuSuan.BN

variable {V D L : Type}

/-- `o'` is `o` possibly with more filled caches. -/
structure Obj.Le (o o' : Obj V D L) : Prop where
  name : o'.name = o.name
  dist : o'.dist = o.dist
  ready : o'.ready = o.ready
  observation : o'.observation = o.observation
  samples : ∀ t, o.samples = some t → o'.samples = some t
  cond : ∀ l, o.condLogP = some l → o'.condLogP = some l

theorem Obj.Le.refl (o : Obj V D L) : o.Le o := ⟨rfl, rfl, rfl, rfl, fun _ h => h, fun _ h => h⟩

theorem Obj.Le.trans {o o' o'' : Obj V D L} (h : o.Le o') (h' : o'.Le o'') : o.Le o'' :=
  ⟨h'.name.trans h.name, h'.dist.trans h.dist, h'.ready.trans h.ready,
    h'.observation.trans h.observation, fun t ht => h'.samples t (h.samples t ht),
    fun l hl => h'.cond l (h.cond l hl)⟩

theorem Obj.Le.value {o o' : Obj V D L} (h : o.Le o') {t : Tensor V} (ht : o.value = some t) :
    o'.value = some t := by
  unfold Obj.value at *
  rw [h.ready, h.observation]
  cases hr : o.ready with
  | false => simp [hr] at ht
  | true =>
    rw [hr] at ht
    cases ho : o.observation with
    | some v => simpa [ho] using ht
    | none =>
      simp [ho] at ht ⊢
      exact h.samples t ht

/-- The heap only grows and objects only fill caches. -/
structure Grow (s s' : State V D L) : Prop where
  len : s.heap.length ≤ s'.heap.length
  obj : ∀ (id : ℕ) (o : Obj V D L), s.heap[id]? = some o → ∃ o' : Obj V D L, s'.heap[id]? = some o' ∧ Obj.Le o o'
  draws : ∃ extra, s'.draws = s.draws ++ extra
  localObs : s'.localObs = s.localObs
  observed : s'.observed = s.observed

theorem Grow.refl (s : State V D L) : Grow s s :=
  ⟨Nat.le_refl _, fun _ o h => ⟨o, h, Obj.Le.refl o⟩, ⟨[], by simp⟩, rfl, rfl⟩

theorem Grow.trans {s s' s'' : State V D L} (h : Grow s s') (h' : Grow s' s'') : Grow s s'' := by
  refine ⟨Nat.le_trans h.len h'.len, fun id o ho => ?_, ?_, h'.localObs.trans h.localObs,
    h'.observed.trans h.observed⟩
  · obtain ⟨o1, h1, h2⟩ := h.obj id o ho
    obtain ⟨o2, h3, h4⟩ := h'.obj id o1 h1
    exact ⟨o2, h3, h2.trans h4⟩
  · obtain ⟨e, he⟩ := h.draws
    obtain ⟨e', he'⟩ := h'.draws
    exact ⟨e ++ e', by rw [he', he, List.append_assoc]⟩

/-- Attribute accesses also leave the nodes and the cache alone. -/
structure Access (s s' : State V D L) : Prop extends Grow s s' where
  nodes : s'.nodes = s.nodes
  cache : s'.cache = s.cache
  metaLJ : s'.metaLJ = s.metaLJ
  len_eq : s'.heap.length = s.heap.length

theorem Access.refl (s : State V D L) : Access s s := ⟨Grow.refl s, rfl, rfl, rfl, rfl⟩

theorem Access.trans {s s' s'' : State V D L} (h : Access s s') (h' : Access s' s'') :
    Access s s'' :=
  ⟨h.toGrow.trans h'.toGrow, h'.nodes.trans h.nodes, h'.cache.trans h.cache,
    h'.metaLJ.trans h.metaLJ, h'.len_eq.trans h.len_eq⟩

theorem HasValue.mono {s s' : State V D L} (h : Grow s s') {id : ℕ} {t : Tensor V}
    (hv : HasValue s id t) : HasValue s' id t := by
  obtain ⟨o, ho, hov⟩ := hv
  obtain ⟨o', ho', hle⟩ := h.obj id o ho
  exact ⟨o', ho', hle.value hov⟩

theorem HasValue.unique {s : State V D L} {id : ℕ} {t t' : Tensor V}
    (h : HasValue s id t) (h' : HasValue s id t') : t = t' := by
  obtain ⟨o, ho, hov⟩ := h
  obtain ⟨o', ho', hov'⟩ := h'
  rw [ho] at ho'
  cases ho'
  rw [hov] at hov'
  exact Option.some.inj hov'

theorem CondIs.mono {env : Env V D L} {s s' : State V D L} (h : Grow s s') {id : ℕ} {l : L}
    (hv : CondIs env s id l) : CondIs env s' id l := by
  obtain ⟨o, t, ho, hov, hl⟩ := hv
  obtain ⟨o', ho', hle⟩ := h.obj id o ho
  exact ⟨o', t, ho', hle.value hov, by rw [hle.dist]; exact hl⟩

theorem CondIs.unique {env : Env V D L} {s : State V D L} {id : ℕ} {l l' : L}
    (h : CondIs env s id l) (h' : CondIs env s id l') : l = l' := by
  obtain ⟨o, t, ho, hov, hl⟩ := h
  obtain ⟨o', t', ho', hov', hl'⟩ := h'
  rw [ho] at ho'; cases ho'
  rw [hov] at hov'; cases hov'
  rw [hl] at hl'
  exact Option.some.inj hl'

/-- Invariant of object `id`. -/
structure ObjInv (env : Env V D L) (draws : List ℕ) (id : ℕ) (o : Obj V D L) : Prop where
  unsampled : o.samples = none → id ∉ draws
  sampled : ∀ t, o.samples = some t → o.ready = true ∧ o.observation = none ∧
    ∃ k, t = .draw id k ∧ draws[k]? = some id ∧ draws.count id = 1
  cond : ∀ l, o.condLogP = some l → ∃ t, o.value = some t ∧ env.logProb o.dist t = some l

/-- Invariant of states. -/
structure Inv (env : Env V D L) (s : State V D L) : Prop where
  wf : s.nodes.WF
  refs : ∀ n id, s.nodes.get? n = some (.stoch id) → id < s.heap.length
  drawn : ∀ id ∈ s.draws, id < s.heap.length
  objs : ∀ (id : ℕ) (o : Obj V D L), s.heap[id]? = some o → ObjInv env s.draws id o

theorem ObjInv.mono {env : Env V D L} {draws : List ℕ} {id x : ℕ} {o : Obj V D L}
    (h : ObjInv env draws id o) (hx : x ≠ id) : ObjInv env (draws ++ [x]) id o := by
  refine ⟨fun hs => ?_, fun t ht => ?_, h.cond⟩
  · simp [h.unsampled hs, Ne.symm hx]
  · obtain ⟨h1, h2, k, h3, h4, h5⟩ := h.sampled t ht
    refine ⟨h1, h2, k, h3, ?_, ?_⟩
    · have hk : k < draws.length := by
        by_contra hcon
        rw [List.getElem?_eq_none (by omega)] at h4
        simp at h4
      rw [List.getElem?_append_left hk]
      exact h4
    · simp [List.count_append, h5, hx]

theorem objTensor_spec (env : Env V D L) (s : State V D L) (id : ℕ) (h : Inv env s) :
    Inv env (objTensor env s id).2 ∧ Access s (objTensor env s id).2 ∧
    ∀ t, (objTensor env s id).1 = .ok t → HasValue (objTensor env s id).2 id t := by
  unfold objTensor
  cases ho : s.heap[id]? with
  | none => exact ⟨h, Access.refl s, by simp⟩
  | some o =>
    simp only
    by_cases hr : o.ready = false
    · simp only [hr, if_true]
      exact ⟨h, Access.refl s, by simp⟩
    · rw [if_neg hr]
      have hr' : o.ready = true := by simpa using hr
      cases hobs : o.observation with
      | some v =>
        refine ⟨h, Access.refl s, ?_⟩
        intro t ht
        simp only [Except.ok.injEq] at ht
        subst ht
        exact ⟨o, ho, by simp [Obj.value, hr', hobs]⟩
      | none =>
        cases hsam : o.samples with
        | some t0 =>
          refine ⟨h, Access.refl s, ?_⟩
          intro t ht
          simp only [Except.ok.injEq] at ht
          subst ht
          exact ⟨o, ho, by simp [Obj.value, hr', hobs, hsam]⟩
        | none =>
          simp only
          by_cases hc : env.canSample o.dist = true
          · simp only [hc, if_true]
            have hid : id < s.heap.length := by
              by_contra hcon
              rw [List.getElem?_eq_none (by omega)] at ho
              simp at ho
            set o' : Obj V D L :=
              { o with observation := none, samples := some (Tensor.draw id s.draws.length) } with ho'
            have hoi := h.objs id o ho
            have hcond : o.condLogP = none := by
              cases hcl : o.condLogP with
              | none => rfl
              | some l =>
                obtain ⟨t, ht, _⟩ := hoi.cond l hcl
                simp [Obj.value, hr', hobs, hsam] at ht
            have hget : ∀ j, (s.heap.set id o')[j]? = if id = j then some o' else s.heap[j]? := by
              intro j
              rw [List.getElem?_set]
              by_cases hij : id = j
              · subst hij; simp [hid]
              · simp [hij]
            refine ⟨⟨h.wf, ?_, ?_, ?_⟩, ⟨⟨?_, ?_, ⟨[id], rfl⟩, rfl, rfl⟩, rfl, rfl, rfl, ?_⟩, ?_⟩
            · intro n j hj
              simpa using h.refs n j hj
            · intro j hj
              simp only [List.mem_append, List.mem_singleton] at hj
              rcases hj with hj | rfl
              · simpa using h.drawn j hj
              · simpa using hid
            · intro j oj hj
              try simp only at hj
              rw [hget] at hj
              by_cases hij : id = j
              · subst hij
                simp only [if_true, Option.some.injEq] at hj
                subst hj
                refine ⟨by simp [ho'], ?_, ?_⟩
                · intro t ht
                  simp only [ho', Option.some.injEq] at ht
                  subst ht
                  refine ⟨hr', rfl, s.draws.length, rfl, ?_, ?_⟩
                  · simp
                  · have : s.draws.count id = 0 := List.count_eq_zero.2 (hoi.unsampled hsam)
                    simp [List.count_append, this]
                · intro l hl
                  simp [ho', hcond] at hl
              · rw [if_neg hij] at hj
                exact (h.objs j oj hj).mono hij
            · simp
            · intro j oj hj
              try simp only
              rw [hget]
              by_cases hij : id = j
              · subst hij
                rw [ho] at hj
                cases hj
                refine ⟨o', by simp, ⟨rfl, rfl, rfl, hobs.symm, ?_, ?_⟩⟩
                · intro t ht; simp [hsam] at ht
                · intro l hl; simp [hcond] at hl
              · exact ⟨oj, by rw [if_neg hij]; exact hj, Obj.Le.refl _⟩
            · simp
            · intro t ht
              simp only [Except.ok.injEq] at ht
              subst ht
              refine ⟨o', ?_, ?_⟩
              · try simp only
                rw [hget]; simp
              · simp [ho', Obj.value, hr', hobs]
          · simp only [hc]
            exact ⟨h, Access.refl s, by simp⟩

theorem objCondLogP_spec (env : Env V D L) (s : State V D L) (id : ℕ) (h : Inv env s) :
    Inv env (objCondLogP env s id).2 ∧ Access s (objCondLogP env s id).2 ∧
    ∀ l, (objCondLogP env s id).1 = .ok l → CondIs env (objCondLogP env s id).2 id l := by
  unfold objCondLogP
  cases ho : s.heap[id]? with
  | none => exact ⟨h, Access.refl s, by simp⟩
  | some o =>
    simp only
    cases hcl : o.condLogP with
    | some l0 =>
      refine ⟨h, Access.refl s, ?_⟩
      intro l hl
      simp only [Except.ok.injEq] at hl
      subst hl
      obtain ⟨t, ht, hl⟩ := (h.objs id o ho).cond _ hcl
      exact ⟨o, t, ho, ht, hl⟩
    | none =>
      obtain ⟨hi, ha, hv⟩ := objTensor_spec env s id h
      rcases he : objTensor env s id with ⟨r, s1⟩
      rw [he] at hi ha hv
      simp only at hi ha hv ⊢
      cases r with
      | error e => exact ⟨hi, ha, by simp⟩
      | ok t =>
        simp only
        cases hlp : env.logProb o.dist t with
        | none => exact ⟨hi, ha, by simp⟩
        | some l0 =>
          simp only
          obtain ⟨o1, ho1, hov1⟩ := hv t rfl
          obtain ⟨o1', ho1', hle⟩ := ha.obj id o ho
          rw [ho1] at ho1'
          cases ho1'
          have hget : ∀ j, (s1.heap.modify id (fun o => { o with condLogP := some l0 }))[j]? =
              if id = j then some { o1 with condLogP := some l0 } else s1.heap[j]? := by
            intro j
            rw [List.getElem?_modify]
            by_cases hij : id = j
            · subst hij; simp [ho1]
            · simp [hij]
          have hval : ({ o1 with condLogP := some l0 } : Obj V D L).value = some t := hov1
          have hlp1 : env.logProb o1.dist t = some l0 := by rw [hle.dist]; exact hlp
          have hcl1 : ∀ l, o1.condLogP = some l → l = l0 := by
            intro l hl
            obtain ⟨t', ht', hl'⟩ := (hi.objs id o1 ho1).cond l hl
            rw [hov1] at ht'; cases ht'
            rw [hlp1] at hl'
            exact (Option.some.inj hl').symm
          refine ⟨⟨hi.wf, ?_, ?_, ?_⟩, ha.trans ⟨⟨?_, ?_, ⟨[], by simp⟩, rfl, rfl⟩, rfl, rfl, rfl, ?_⟩,
            ?_⟩
          · intro n j hj
            simpa using hi.refs n j hj
          · intro j hj
            simpa using hi.drawn j hj
          · intro j oj hj
            simp only at hj
            rw [hget] at hj
            by_cases hij : id = j
            · subst hij
              simp only [if_true, Option.some.injEq] at hj
              subst hj
              have hoi := hi.objs id o1 ho1
              refine ⟨hoi.unsampled, hoi.sampled, ?_⟩
              intro l hl
              simp only [Option.some.injEq] at hl
              subst hl
              exact ⟨t, hval, hlp1⟩
            · rw [if_neg hij] at hj
              exact hi.objs j oj hj
          · simp
          · intro j oj hj
            simp only
            rw [hget]
            by_cases hij : id = j
            · subst hij
              rw [ho1] at hj
              cases hj
              refine ⟨{ o1 with condLogP := some l0 }, by simp, ⟨rfl, rfl, rfl, rfl, fun _ ht => ht, ?_⟩⟩
              intro l hl
              simp [hcl1 l hl]
            · exact ⟨oj, by rw [if_neg hij]; exact hj, Obj.Le.refl _⟩
          · simp
          · intro l hl
            simp only [Except.ok.injEq] at hl
            subst hl
            refine ⟨_, t, ?_, hval, hlp1⟩
            simp only; rw [hget]; simp

/-- Left-to-right evaluation keeps the invariant; facts about earlier items persist. -/
theorem comprehension_spec {ι α : Type} (env : Env V D L)
    (f : State V D L → ι → Except Err α × State V D L)
    (P : State V D L → ι → α → Prop)
    (hf : ∀ s i, Inv env s → Inv env (f s i).2 ∧ Access s (f s i).2 ∧
      ∀ a, (f s i).1 = .ok a → P (f s i).2 i a)
    (hP : ∀ s s' i a, Access s s' → P s i a → P s' i a) :
    ∀ (is : List ι) (s : State V D L), Inv env s →
      Inv env (comprehension f s is).2 ∧ Access s (comprehension f s is).2 ∧
      ∀ as, (comprehension f s is).1 = .ok as →
        List.Forall₂ (P (comprehension f s is).2) is as := by
  intro is
  induction is with
  | nil =>
    intro s h
    refine ⟨h, Access.refl s, ?_⟩
    intro as has
    simp only [comprehension, Except.ok.injEq] at has
    subst has
    exact List.Forall₂.nil
  | cons i is ih =>
    intro s h
    obtain ⟨h1, h2, h3⟩ := hf s i h
    unfold comprehension
    rcases he : f s i with ⟨r, s1⟩
    rw [he] at h1 h2 h3
    simp only at h1 h2 h3
    cases r with
    | error e => exact ⟨h1, h2, by simp⟩
    | ok a =>
      simp only
      obtain ⟨g1, g2, g3⟩ := ih s1 h1
      rcases he2 : comprehension f s1 is with ⟨r2, s2⟩
      rw [he2] at g1 g2 g3
      simp only at g1 g2 g3
      cases r2 with
      | error e => exact ⟨g1, h2.trans g2, by simp⟩
      | ok as =>
        refine ⟨g1, h2.trans g2, ?_⟩
        intro as' has'
        simp only [Except.ok.injEq] at has'
        subst has'
        exact List.Forall₂.cons (hP _ _ _ _ g2 (h3 a rfl)) (g3 as rfl)

theorem nodeTensor_spec (env : Env V D L) (s : State V D L) (n : Name) (h : Inv env s) :
    Inv env (nodeTensor env s n).2 ∧ Access s (nodeTensor env s n).2 ∧
    ∀ t, (nodeTensor env s n).1 = .ok t →
      ∃ id, (nodeTensor env s n).2.nodes.get? n = some (.stoch id) ∧
        HasValue (nodeTensor env s n).2 id t := by
  unfold nodeTensor
  split
  · rename_i id hn
    obtain ⟨h1, h2, h3⟩ := objTensor_spec env s id h
    exact ⟨h1, h2, fun t ht => ⟨id, by rw [h2.nodes]; exact hn, h3 t ht⟩⟩
  · exact ⟨h, Access.refl s, by simp⟩
  · exact ⟨h, Access.refl s, by simp⟩

theorem nodeCondLogP_spec (env : Env V D L) (s : State V D L) (n : Name) (h : Inv env s) :
    Inv env (nodeCondLogP env s n).2 ∧ Access s (nodeCondLogP env s n).2 ∧
    ∀ l, (nodeCondLogP env s n).1 = .ok l → NamedCondIs env (nodeCondLogP env s n).2 n l := by
  unfold nodeCondLogP
  split
  · rename_i id hn
    obtain ⟨h1, h2, h3⟩ := objCondLogP_spec env s id h
    exact ⟨h1, h2, fun t ht => ⟨id, by rw [h2.nodes]; exact hn, h3 t ht⟩⟩
  · exact ⟨h, Access.refl s, by simp⟩
  · exact ⟨h, Access.refl s, by simp⟩

theorem NamedCondIs.mono {env : Env V D L} {s s' : State V D L} (h : Access s s') {n : Name} {l : L}
    (hv : NamedCondIs env s n l) : NamedCondIs env s' n l := by
  obtain ⟨id, h1, h2⟩ := hv
  exact ⟨id, by rw [h.nodes]; exact h1, h2.mono h.toGrow⟩

theorem condLogProb_spec (env : Env V D L) (s : State V D L) (a : NameArg) (h : Inv env s) :
    Inv env (condLogProb env s a).2 ∧ Access s (condLogProb env s a).2 := by
  unfold condLogProb
  split
  · exact ⟨h, Access.refl s⟩
  · rename_i ns _
    obtain ⟨h1, h2, _⟩ := comprehension_spec env (nodeCondLogP env) (NamedCondIs env)
      (fun s i hi => nodeCondLogP_spec env s i hi) (fun _ _ _ _ hacc hv => hv.mono hacc) ns s h
    split <;> rename_i heq <;> rw [heq] at h1 h2 <;> exact ⟨h1, h2⟩
  · rename_i n _
    obtain ⟨h1, h2, _⟩ := nodeCondLogP_spec env s n h
    split <;> rename_i heq <;> rw [heq] at h1 h2 <;> exact ⟨h1, h2⟩

theorem outputs_spec (env : Env V D L) (s : State V D L) (a : NameArg) (h : Inv env s) :
    Inv env (outputs env s a).2 ∧ Access s (outputs env s a).2 := by
  unfold outputs
  split
  · exact ⟨h, Access.refl s⟩
  · rename_i ns _
    obtain ⟨h1, h2, _⟩ := comprehension_spec env (nodeTensor env)
      (fun _ _ _ => True)
      (fun s i hi => ⟨(nodeTensor_spec env s i hi).1, (nodeTensor_spec env s i hi).2.1, fun _ _ => trivial⟩)
      (fun _ _ _ _ _ _ => trivial) ns s h
    split <;> rename_i heq <;> rw [heq] at h1 h2 <;> exact ⟨h1, h2⟩
  · rename_i n _
    obtain ⟨h1, h2, _⟩ := nodeTensor_spec env s n h
    split <;> rename_i heq <;> rw [heq] at h1 h2 <;> exact ⟨h1, h2⟩

theorem whenFlag_spec (env : Env V D L) (flag : Bool) (s : State V D L)
    (call : State V D L → Except Err (Out V L) × State V D L)
    (hcall : ∀ s, Inv env s → Inv env (call s).2 ∧ Access s (call s).2) (h : Inv env s) :
    Inv env (whenFlag flag s call).2 ∧ Access s (whenFlag flag s call).2 := by
  unfold whenFlag
  obtain ⟨h1, h2⟩ := hcall s h
  split
  · split <;> rename_i heq <;> rw [heq] at h1 h2 <;> exact ⟨h1, h2⟩
  · exact ⟨h, Access.refl s⟩

theorem query_spec (env : Env V D L) (s : State V D L) (a : NameArg) (o l : Bool) (h : Inv env s) :
    Inv env (query env s a o l).2 ∧ Access s (query env s a o l).2 := by
  unfold query
  split
  · exact ⟨h, Access.refl s⟩
  · obtain ⟨h1, h2⟩ := whenFlag_spec env o s (fun s => outputs env s a)
      (fun s hs => outputs_spec env s a hs) h
    split
    · rename_i heq; rw [heq] at h1 h2; exact ⟨h1, h2⟩
    · rename_i ro s1 heq
      rw [heq] at h1 h2
      simp only at h1 h2
      obtain ⟨g1, g2⟩ := whenFlag_spec env l s1 (fun s => condLogProb env s a)
        (fun s hs => condLogProb_spec env s a hs) h1
      split
      · rename_i heq2; rw [heq2] at g1 g2; exact ⟨g1, h2.trans g2⟩
      · rename_i rl s2 heq2
        rw [heq2] at g1 g2
        simp only at g1 g2
        have := h2.trans g2
        split
        · exact ⟨g1, this⟩
        · split <;> exact ⟨g1, this⟩

variable [AddCommMonoid L]

theorem logJointFresh_spec (env : Env V D L) (s : State V D L) (h : Inv env s) :
    Inv env (logJointFresh env s).2 ∧ Access s (logJointFresh env s).2 ∧
    ∀ l, (logJointFresh env s).1 = .ok l → JointIs env (logJointFresh env s).2 l := by
  unfold logJointFresh
  have hdef : ∀ (hm : s.metaLJ = none ∨ s.metaLJ = some .unset),
      let r := comprehension (objCondLogP env) s (stochIds s.nodes)
      Inv env r.2 ∧ Access s r.2 ∧ ∀ ls, r.1 = .ok ls → JointIs env r.2 ls.sum := by
    intro hm
    obtain ⟨h1, h2, h3⟩ := comprehension_spec env (objCondLogP env) (CondIs env)
      (fun s i hi => objCondLogP_spec env s i hi) (fun _ _ _ _ ha hv => hv.mono ha.toGrow)
      (stochIds s.nodes) s h
    refine ⟨h1, h2, fun ls hls => ?_⟩
    have h4 := h3 ls hls
    unfold JointIs
    rw [h2.metaLJ, h2.nodes]
    rcases hm with hm | hm <;> rw [hm] <;> exact ⟨ls, h4, rfl⟩
  cases hm : s.metaLJ with
  | none =>
    obtain ⟨h1, h2, h3⟩ := hdef (.inl hm)
    simp only
    split <;> rename_i heq <;> simp only [heq] at h1 h2 h3
    · exact ⟨h1, h2, by simp⟩
    · refine ⟨h1, h2, fun l hl => ?_⟩
      simp only [Except.ok.injEq] at hl
      subst hl
      exact h3 _ rfl
  | some lj =>
    cases lj with
    | unset =>
      obtain ⟨h1, h2, h3⟩ := hdef (.inr hm)
      simp only
      split <;> rename_i heq <;> simp only [heq] at h1 h2 h3
      · exact ⟨h1, h2, by simp⟩
      · refine ⟨h1, h2, fun l hl => ?_⟩
        simp only [Except.ok.injEq] at hl
        subst hl
        exact h3 _ rfl
    | nonCallable => exact ⟨h, Access.refl s, by simp⟩
    | callable names combine =>
      simp only
      obtain ⟨h1, h2⟩ := condLogProb_spec env s (.many (names.map .str)) h
      have h3 : ∀ ls, (condLogProb env s (.many (names.map .str))).1 = .ok (.vals ls) →
          List.Forall₂ (NamedCondIs env (condLogProb env s (.many (names.map .str))).2) names ls := by
        intro ls hls
        unfold condLogProb at hls ⊢
        have hchk : ∀ (names : List Name) ns,
            checkAll s.nodes true (names.map .str) = .ok ns → ns = names := by
          intro names
          induction names with
          | nil => intro ns hns; simp [checkAll] at hns; exact hns
          | cons n names ih =>
            intro ns hns
            simp only [List.map_cons, checkAll] at hns
            split at hns
            · simp at hns
            · rename_i n' hn'
              have : n' = n := by
                unfold checkName at hn'
                simp only at hn'
                split at hn' <;> simp at hn' <;> first | exact hn'.symm | simp_all
              split at hns
              · simp at hns
              · rename_i ns' hns'
                simp only [Except.ok.injEq] at hns
                rw [← hns, this, ih ns' hns']
        simp only [checkNames] at hls ⊢
        cases hca : checkAll s.nodes true (names.map .str) with
        | error e => simp [hca] at hls
        | ok ns =>
          have hns := hchk names ns hca
          subst hns
          simp only [hca] at hls ⊢
          obtain ⟨_, _, g3⟩ := comprehension_spec env (nodeCondLogP env) (NamedCondIs env)
            (fun s i hi => nodeCondLogP_spec env s i hi) (fun _ _ _ _ ha hv => hv.mono ha) ns s h
          cases hcomp : comprehension (nodeCondLogP env) s ns with
          | mk r s1 =>
            rw [hcomp] at g3 hls
            cases r with
            | error e => simp at hls
            | ok ls' =>
              simp only [Except.ok.injEq, Out.vals.injEq] at hls
              subst hls
              exact g3 _ rfl
      cases hr : condLogProb env s (.many (names.map .str)) with
      | mk r s1 =>
        rw [hr] at h1 h2 h3
        simp only at h1 h2 h3
        cases r with
        | error e => exact ⟨h1, h2, by simp⟩
        | ok o =>
          cases o with
          | vals ls =>
            refine ⟨h1, h2, fun l hl => ?_⟩
            simp only [Except.ok.injEq] at hl
            subst hl
            unfold JointIs
            rw [h2.metaLJ, hm]
            exact ⟨ls, h3 ls rfl, rfl⟩
          | _ => exact ⟨h1, h2, by simp⟩

theorem Inv.setCache {env : Env V D L} {s : State V D L} (h : Inv env s) (c : Option L) :
    Inv env { s with cache := c } := ⟨h.wf, h.refs, h.drawn, h.objs⟩

theorem push_inv {env : Env V D L} {s : State V D L} (h : Inv env s) (o : Obj V D L)
    (hs : o.samples = none) (hc : o.condLogP = none) (n : Name) :
    Inv env { s with heap := s.heap ++ [o], nodes := s.nodes.set n (.stoch s.heap.length) } ∧
    Grow s { s with heap := s.heap ++ [o], nodes := s.nodes.set n (.stoch s.heap.length) } := by
  refine ⟨⟨Dict.set_wf h.wf _ _, ?_, ?_, ?_⟩, ⟨by simp, ?_, ⟨[], by simp⟩, rfl, rfl⟩⟩
  · intro m id hm
    simp only [Dict.get?_set] at hm
    simp only [List.length_append, List.length_singleton]
    by_cases hnm : n = m
    · simp only [hnm, if_true, Option.some.injEq, Ref.stoch.injEq] at hm
      omega
    · rw [if_neg hnm] at hm
      have := h.refs m id hm
      omega
  · intro id hid
    have := h.drawn id hid
    simp only [List.length_append, List.length_singleton]
    omega
  · intro id o' ho'
    simp only at ho'
    by_cases hlt : id < s.heap.length
    · rw [List.getElem?_append_left hlt] at ho'
      exact h.objs id o' ho'
    · rw [List.getElem?_append_right (by omega)] at ho'
      have hid : id = s.heap.length := by
        by_contra hne
        rw [List.getElem?_eq_none (by simp; omega)] at ho'
        simp at ho'
      subst hid
      simp at ho'
      subst ho'
      refine ⟨fun _ hmem => ?_, fun t ht => by simp [hs] at ht, fun l hl => by simp [hc] at hl⟩
      have := h.drawn _ hmem
      omega
  · intro id o' ho'
    have hlt : id < s.heap.length := by
      by_contra hcon
      rw [List.getElem?_eq_none (by omega)] at ho'
      simp at ho'
    exact ⟨o', by simp only; rw [List.getElem?_append_left hlt]; exact ho', Obj.Le.refl _⟩

theorem step_inv (env : Env V D L) (s : State V D L) (op : Op V D L) (h : Inv env s) :
    Inv env (step env s op).2 ∧ Grow s (step env s op).2 := by
  cases op with
  | stochastic n d =>
    simp only [step, stochastic]
    cases hn : s.nodes.get? n with
    | some r => exact ⟨h, Grow.refl s⟩
    | none =>
      simp only
      split
      · exact ⟨h.setCache none, ⟨Nat.le_refl _, fun _ o ho => ⟨o, ho, Obj.Le.refl o⟩, ⟨[], by simp⟩, rfl, rfl⟩⟩
      · rename_i o _
        have h' := push_inv (h.setCache none)
          { name := n, dist := d, ready := true, observation := o, samples := none,
            condLogP := none } rfl rfl n
        exact ⟨h'.1, ⟨h'.2.len, h'.2.obj, h'.2.draws, rfl, rfl⟩⟩
  | deterministic n t =>
    simp only [step, deterministic]
    refine ⟨⟨Dict.set_wf h.wf _ _, ?_, h.drawn, h.objs⟩,
      ⟨Nat.le_refl _, fun _ o ho => ⟨o, ho, Obj.Le.refl o⟩, ⟨[], by simp⟩, rfl, rfl⟩⟩
    intro m id hm
    simp only [Dict.get?_set] at hm
    by_cases hnm : n = m
    · simp [hnm] at hm
    · rw [if_neg hnm] at hm
      exact h.refs m id hm
  | legacy n d obs =>
    simp only [step, legacy]
    split
    · exact push_inv h _ rfl rfl n
    · exact push_inv h _ rfl rfl n
  | get a => exact ⟨h, Grow.refl s⟩
  | getItem p => exact ⟨h, Grow.refl s⟩
  | setItem n => exact ⟨h, Grow.refl s⟩
  | condLogProb a =>
    exact ⟨(condLogProb_spec env s a h).1, (condLogProb_spec env s a h).2.toGrow⟩
  | outputs a => exact ⟨(outputs_spec env s a h).1, (outputs_spec env s a h).2.toGrow⟩
  | query a o l => exact ⟨(query_spec env s a o l h).1, (query_spec env s a o l h).2.toGrow⟩
  | logJoint =>
    simp only [step, logJoint]
    cases hc : s.cache with
    | some l => exact ⟨h, Grow.refl s⟩
    | none =>
      obtain ⟨h1, h2, _⟩ := logJointFresh_spec env s h
      rcases he : logJointFresh env s with ⟨r, s1⟩
      rw [he] at h1 h2
      cases r with
      | error e => exact ⟨h1, h2.toGrow⟩
      | ok l =>
        exact ⟨h1.setCache _, ⟨h2.len, h2.obj, h2.draws, h2.localObs, h2.observed⟩⟩
  | setLogJoint f =>
    simp only [step]
    cases s.metaLJ with
    | none => exact ⟨h, Grow.refl s⟩
    | some _ =>
      exact ⟨⟨h.wf, h.refs, h.drawn, h.objs⟩,
        ⟨Nat.le_refl _, fun _ o ho => ⟨o, ho, Obj.Le.refl o⟩, ⟨[], by simp⟩, rfl, rfl⟩⟩
  | tensor id =>
    obtain ⟨h1, h2, _⟩ := objTensor_spec env s id h
    simp only [step]
    split <;> rename_i heq <;> rw [heq] at h1 h2 <;> exact ⟨h1, h2.toGrow⟩
  | objCondLogP id =>
    obtain ⟨h1, h2, _⟩ := objCondLogP_spec env s id h
    simp only [step]
    split <;> rename_i heq <;> rw [heq] at h1 h2 <;> exact ⟨h1, h2.toGrow⟩

theorem run_inv (env : Env V D L) (ops : List (Op V D L)) (s : State V D L) (h : Inv env s) :
    Inv env (run env s ops) ∧ Grow s (run env s ops) := by
  induction ops generalizing s with
  | nil => exact ⟨h, Grow.refl s⟩
  | cons op ops ih =>
    obtain ⟨h1, h2⟩ := step_inv env s op h
    obtain ⟨h3, h4⟩ := ih _ h1
    exact ⟨h3, h2.trans h4⟩

theorem init_inv (env : Env V D L) (lo : Option (Dict Name (Option V))) (m : Option (LogJoint L))
    (ob : Dict Name (Option V)) : Inv env (State.init lo m ob : State V D L) := by
  constructor <;> simp [State.init, Dict.WF, Dict.keys, Dict.get?]

end ZhuSuan.BN
