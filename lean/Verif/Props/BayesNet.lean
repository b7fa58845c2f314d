import Verif.Lemmas.BayesNet2

/-!
# Properties C06–C10: `BayesianNet` histories

`hist env lo m ob ops` is the state of a net created under an `observe` call with observations `lo`
(or none), with the deprecated dictionary `ob` and model log joint `m`, after the calls `ops`.
-/

set_option autoImplicit false

namespace ZhuSuan.BN

variable {V D L : Type} [AddCommMonoid L]

/-- The state after a history of API calls on a new net. -/
def hist (env : Env V D L) (lo : Option (Dict Name (Option V))) (m : Option (LogJoint L))
    (ob : Dict Name (Option V)) (ops : List (Op V D L)) : State V D L :=
  run env (State.init lo m ob) ops

section

variable (env : Env V D L) (lo : Option (Dict Name (Option V))) (m : Option (LogJoint L))
  (ob : Dict Name (Option V)) (ops : List (Op V D L))

theorem hist_inv : Inv env (hist env lo m ob ops) := (run_inv env ops _ (init_inv env lo m ob)).1

theorem hist_grow : Grow (State.init lo m ob) (hist env lo m ob ops) :=
  (run_inv env ops _ (init_inv env lo m ob)).2

/-! ### C06 -/

/-- **C06.** A name that `bn.get` finds is refused by `stochastic` with `ValueError`, and nothing at
all changes. -/
theorem C06_duplicate_rejected (n : Name) (d : D) (r : Ref V)
    (h : (step env (hist env lo m ob ops) (.get (.one n))).1 = .ok (.node r)) :
    step env (hist env lo m ob ops) (.stochastic n d) = (.error .valueError, hist env lo m ob ops) := by
  have hn : ∃ r', (hist env lo m ob ops).nodes.get? n = some r' := by
    cases hc : (hist env lo m ob ops).nodes.get? n with
    | some r' => exact ⟨r', rfl⟩
    | none => simp [step, get, checkNames, checkName, hc] at h
  obtain ⟨r', hr'⟩ := hn
  simp [step, stochastic, hr']

/-- **C06.** A rejected `stochastic` (duplicate name or bad observation) changes no node, creates no
object, draws nothing. -/
theorem C06_failed_add_harmless (n : Name) (d : D) (e : Err)
    (h : (step env (hist env lo m ob ops) (.stochastic n d)).1 = .error e) :
    (step env (hist env lo m ob ops) (.stochastic n d)).2.nodes = (hist env lo m ob ops).nodes ∧
    (step env (hist env lo m ob ops) (.stochastic n d)).2.heap = (hist env lo m ob ops).heap ∧
    (step env (hist env lo m ob ops) (.stochastic n d)).2.draws = (hist env lo m ob ops).draws := by
  simp only [step, stochastic] at h ⊢
  cases hc : (hist env lo m ob ops).nodes.get? n with
  | some r => simp
  | none =>
    simp only [hc] at h ⊢
    split
    · simp
    · rename_i heq
      rw [heq] at h
      simp at h

/-- **C06.** A successful `stochastic` adds exactly one binding, to a new object; all the other
names are bound as before. -/
theorem C06_add (n : Name) (d : D) (o : Out V L)
    (h : (step env (hist env lo m ob ops) (.stochastic n d)).1 = .ok o) :
    (hist env lo m ob ops).nodes.get? n = none ∧
    (∀ k, (step env (hist env lo m ob ops) (.stochastic n d)).2.nodes.get? k =
      if n = k then some (.stoch (hist env lo m ob ops).heap.length)
      else (hist env lo m ob ops).nodes.get? k) ∧
    o = .node (.stoch (hist env lo m ob ops).heap.length) := by
  simp only [step, stochastic] at h ⊢
  cases hc : (hist env lo m ob ops).nodes.get? n with
  | some r => simp [hc] at h
  | none =>
    simp only [hc] at h ⊢
    split
    · rename_i heq
      rw [heq] at h
      simp at h
    · rename_i heq
      rw [heq] at h
      simp only [Except.ok.injEq] at h
      refine ⟨trivial, fun k => ?_, h.symm⟩
      simp only [Dict.get?_set]

/-- **C06.** Once a name is bound, no history keeps it from being bound to the same node, except
`deterministic` or a deprecated constructor called with that very name. -/
theorem C06_name_stable (n : Name) (r : Ref V) (more : List (Op V D L))
    (hn : (hist env lo m ob ops).nodes.get? n = some r)
    (hdet : ∀ t, Op.deterministic n t ∉ more) (hleg : ∀ d o, Op.legacy n d o ∉ more) :
    (hist env lo m ob (ops ++ more)).nodes.get? n = some r := by
  unfold hist at *
  rw [run_append]
  have hi := hist_inv env lo m ob ops
  unfold hist at hi
  generalize run env (State.init lo m ob) ops = s at *
  induction more generalizing s with
  | nil => exact hn
  | cons op more ih =>
    refine ih (fun t ht => hdet t (by simp [ht])) (fun d o ho => hleg d o (by simp [ho])) _ ?_
      (step_inv env s op hi).1
    rw [step_nodes env s op n hi (fun t ht => hdet t (by simp [ht]))
      (fun d o ho => hleg d o (by simp [ho])) (by simp [hn])]
    exact hn

/-- **C06.** In every history, different names never share a `StochasticTensor`, and each object is
bound only under its own name. -/
theorem C06_injective (n n' : Name) (id : ℕ)
    (h : (hist env lo m ob ops).nodes.get? n = some (.stoch id))
    (h' : (hist env lo m ob ops).nodes.get? n' = some (.stoch id)) : n = n' := by
  have hnm : Named (hist env lo m ob ops) :=
    run_named env ops _ (init_inv env lo m ob) (by intro n id h; simp [State.init, Dict.get?] at h)
  obtain ⟨o, ho, hname⟩ := hnm n id h
  obtain ⟨o', ho', hname'⟩ := hnm n' id h'
  rw [ho] at ho'
  cases ho'
  exact hname.symm.trans hname'

/-- Finding: `deterministic` silently replaces a stochastic node. -/
theorem C06_deterministic_overwrites (n : Name) (t : Tensor V) :
    (step env (hist env lo m ob ops) (.deterministic n t)).1 = .ok (.tensor t) ∧
    (step env (hist env lo m ob ops) (.deterministic n t)).2.nodes.get? n = some (.det t) := by
  simp [step, deterministic, Dict.get?_set]

/-- Finding: a deprecated constructor replaces an existing node, and does so even when it raises;
the node left behind cannot be used. -/
theorem C06_legacy_overwrites (n : Name) (d : D) (v : V) (hv : env.checkObs d v = none) :
    let s' := (step env (hist env lo m ob ops) (.legacy n d (some v))).2
    (step env (hist env lo m ob ops) (.legacy n d (some v))).1 = .error .valueError ∧
    s'.nodes.get? n = some (.stoch (hist env lo m ob ops).heap.length) ∧
    (step env s' (.tensor (hist env lo m ob ops).heap.length)).1 = .error .attributeError := by
  simp [step, legacy, resolveObs, hv, Dict.get?_set, objTensor]

/-! ### C07 -/

/-- **C07.** The observation of a new stochastic node: the value given to the enclosing `observe`,
else the deprecated dictionary's, else the node is latent. -/
theorem C07_precedence (n : Name) (d : D) (r : Ref V)
    (h : (step env (hist env lo m ob ops) (.stochastic n d)).1 = .ok (.node r)) :
    ∃ id o, r = .stoch id ∧
      (step env (hist env lo m ob ops) (.stochastic n d)).2.heap[id]? = some o ∧
      o.name = n ∧ o.dist = d ∧
      (match expectedObs lo ob n with
        | some (some v) => ∃ v', env.checkObs d v = some v' ∧ o.observation = some v'
        | some none => False
        | none => o.observation = none) := by
  have hlo : (hist env lo m ob ops).localObs = lo := (hist_grow env lo m ob ops).localObs
  have hob : (hist env lo m ob ops).observed = ob := (hist_grow env lo m ob ops).observed
  simp only [step, stochastic] at h ⊢
  cases hc : (hist env lo m ob ops).nodes.get? n with
  | some r => simp [hc] at h
  | none =>
    simp only [hc] at h ⊢
    split
    · rename_i heq
      rw [heq] at h
      simp at h
    · rename_i o heq
      rw [heq] at h
      simp only [Except.ok.injEq, Out.node.injEq] at h
      refine ⟨_, _, h.symm, by simp; rfl, rfl, rfl, ?_⟩
      simp only
      rw [hob] at heq
      unfold getObservation at heq
      simp only [hlo] at heq
      unfold expectedObs
      unfold resolveObs at heq
      have fin : ∀ x : Except Err (Option V), x = .ok o → ∀ v,
          x = (match env.checkObs d v with | some v => .ok (some v) | none => .error .valueError) →
          ∃ v', env.checkObs d v = some v' ∧ o = some v' := by
        intro x hx v hv
        rw [hx] at hv
        cases hch : env.checkObs d v with
        | none => simp [hch] at hv
        | some v' => simp only [hch, Except.ok.injEq] at hv; exact ⟨v', rfl, hv⟩
      have tail : (match ob.get? n with
          | some (some v) =>
            (match env.checkObs d v with
            | some v => (.ok (some v) : Except Err (Option V))
            | none => .error .valueError)
          | some none => .error .valueError
          | none => .ok none) = .ok o →
          (match ob.get? n with
            | some (some v) => ∃ v', env.checkObs d v = some v' ∧ o = some v'
            | some none => False
            | none => o = none) := by
        intro ht
        cases hg : ob.get? n with
        | none => simp only [hg, Except.ok.injEq] at ht; exact ht.symm
        | some x =>
          cases x with
          | none => simp [hg] at ht
          | some v => simp only [hg] at ht; exact fin _ ht v rfl
      cases lo with
      | none => exact tail heq
      | some dct =>
        simp only [Option.bind_some] at heq ⊢
        cases hg : dct.get? n with
        | none => simp only [hg, Option.getD_none] at heq ⊢; exact tail heq
        | some x =>
          cases x with
          | none => simp only [hg, Option.getD_some] at heq ⊢; exact tail heq
          | some v => simp only [hg, Option.getD_some] at heq ⊢; exact fin _ heq v rfl

/-- **C07.** An observation passed explicitly (deprecated constructors) wins over the dictionary. -/
theorem C07_explicit_wins (n : Name) (d : D) (v : V) (r : Ref V)
    (h : (step env (hist env lo m ob ops) (.legacy n d (some v))).1 = .ok (.node r)) :
    ∃ id o v', r = .stoch id ∧
      (step env (hist env lo m ob ops) (.legacy n d (some v))).2.heap[id]? = some o ∧
      env.checkObs d v = some v' ∧ o.observation = some v' := by
  simp only [step, legacy, resolveObs] at h ⊢
  cases hch : env.checkObs d v with
  | none => simp [hch] at h
  | some v' =>
    simp only [hch, Except.ok.injEq, Out.node.injEq] at h ⊢
    exact ⟨_, _, v', h.symm, by simp; rfl, rfl, rfl⟩

/-- **C07.** Whatever is called afterwards, a stochastic node keeps its distribution and its
observed status and value. -/
theorem C07_fixed (more : List (Op V D L)) (id : ℕ) (o : Obj V D L)
    (h : (hist env lo m ob ops).heap[id]? = some o) :
    ∃ o', (hist env lo m ob (ops ++ more)).heap[id]? = some o' ∧
      o'.observation = o.observation ∧ o'.dist = o.dist ∧ o'.name = o.name := by
  have hg := (run_inv env more _ (hist_inv env lo m ob ops)).2
  have heq : run env (hist env lo m ob ops) more = hist env lo m ob (ops ++ more) := by
    unfold hist; rw [run_append]
  rw [heq] at hg
  obtain ⟨o', ho', hle⟩ := hg.obj id o h
  exact ⟨o', ho', hle.observation, hle.dist, hle.name⟩

/-- **C07.** The value of an observed node is its observation, at every later time. -/
theorem C07_observed_value (more : List (Op V D L)) (id : ℕ) (o : Obj V D L) (v : V)
    (h : (hist env lo m ob ops).heap[id]? = some o) (hr : o.ready = true)
    (hv : o.observation = some v) :
    (step env (hist env lo m ob (ops ++ more)) (.tensor id)).1 = .ok (.tensor (.ext v)) := by
  have hval : HasValue (hist env lo m ob ops) id (.ext v) := ⟨o, h, by simp [Obj.value, hr, hv]⟩
  have hg := (run_inv env more _ (hist_inv env lo m ob ops)).2
  have heq : run env (hist env lo m ob ops) more = hist env lo m ob (ops ++ more) := by
    unfold hist; rw [run_append]
  rw [heq] at hg
  simp [step, objTensor_of_value (hval.mono hg)]

/-! ### C08 -/

/-- **C08.** No object ever draws twice. -/
theorem C08_at_most_once (id : ℕ) : (hist env lo m ob ops).draws.count id ≤ 1 := by
  have h := hist_inv env lo m ob ops
  by_cases hlt : id < (hist env lo m ob ops).heap.length
  · have ho : (hist env lo m ob ops).heap[id]? = some (hist env lo m ob ops).heap[id] := by simp
    have hoi := h.objs id _ ho
    cases hs : ((hist env lo m ob ops).heap[id]).samples with
    | none => rw [List.count_eq_zero.2 (hoi.unsampled hs)]; omega
    | some t =>
      obtain ⟨_, _, k, _, _, h5⟩ := hoi.sampled t hs
      omega
  · have : id ∉ (hist env lo m ob ops).draws := fun hm => hlt (h.drawn id hm)
    rw [List.count_eq_zero.2 this]; omega

/-- **C08.** An observed node never draws. -/
theorem C08_observed_never_draws (id : ℕ) (o : Obj V D L) (v : V)
    (h : (hist env lo m ob ops).heap[id]? = some o) (hv : o.observation = some v) :
    id ∉ (hist env lo m ob ops).draws := by
  have hoi := (hist_inv env lo m ob ops).objs id o h
  cases hs : o.samples with
  | none => exact hoi.unsampled hs
  | some t =>
    obtain ⟨_, h2, _⟩ := hoi.sampled t hs
    rw [hv] at h2
    cases h2

/-- **C08.** If the value of a node was `t` at some time, it is `t` at every later time, and looking
at it again changes nothing. -/
theorem C08_same_draw (more : List (Op V D L)) (id : ℕ) (t : Tensor V)
    (h : (step env (hist env lo m ob ops) (.tensor id)).1 = .ok (.tensor t)) :
    step env (hist env lo m ob (ops ++ .tensor id :: more)) (.tensor id) =
      (.ok (.tensor t), hist env lo m ob (ops ++ .tensor id :: more)) := by
  have hi := hist_inv env lo m ob ops
  obtain ⟨h1, _, h3⟩ := objTensor_spec env _ id hi
  have hval : HasValue (step env (hist env lo m ob ops) (.tensor id)).2 id t := by
    simp only [step] at h ⊢
    rcases he : objTensor env (hist env lo m ob ops) id with ⟨r, s1⟩
    rw [he] at h h3
    cases r with
    | error e => simp at h
    | ok t' =>
      simp only [Except.ok.injEq, Out.tensor.injEq] at h
      subst h
      exact h3 _ rfl
  have hg := (run_inv env more _ (step_inv env _ (.tensor id) hi).1).2
  have heq : run env (step env (hist env lo m ob ops) (.tensor id)).2 more =
      hist env lo m ob (ops ++ .tensor id :: more) := by
    unfold hist; rw [run_append]; rfl
  rw [heq] at hg
  simp [step, objTensor_of_value (hval.mono hg)]

/-- **C08.** Every conditional log probability ever returned for a node, in any history, is the log
probability of that one value (the draw the node made, or its observation). -/
theorem C08_cond_uses_draw (more : List (Op V D L)) (id : ℕ) (l : L)
    (h : (step env (hist env lo m ob ops) (.objCondLogP id)).1 = .ok (.val l)) :
    ∃ o t, (hist env lo m ob (ops ++ .objCondLogP id :: more)).heap[id]? = some o ∧
      env.logProb o.dist t = some l ∧
      (step env (hist env lo m ob (ops ++ .objCondLogP id :: more)) (.tensor id)).1 =
        .ok (.tensor t) := by
  have hi := hist_inv env lo m ob ops
  obtain ⟨h1, _, h3⟩ := objCondLogP_spec env _ id hi
  have hcond : CondIs env (step env (hist env lo m ob ops) (.objCondLogP id)).2 id l := by
    simp only [step] at h ⊢
    rcases he : objCondLogP env (hist env lo m ob ops) id with ⟨r, s1⟩
    rw [he] at h h3
    cases r with
    | error e => simp at h
    | ok t' =>
      simp only [Except.ok.injEq, Out.val.injEq] at h
      subst h
      exact h3 _ rfl
  have hg := (run_inv env more _ (step_inv env _ (.objCondLogP id) hi).1).2
  have heq : run env (step env (hist env lo m ob ops) (.objCondLogP id)).2 more =
      hist env lo m ob (ops ++ .objCondLogP id :: more) := by
    unfold hist; rw [run_append]; rfl
  rw [heq] at hg
  obtain ⟨o, t, ho, hov, hl⟩ := hcond.mono hg
  refine ⟨o, t, ho, hl, ?_⟩
  have hval : HasValue (hist env lo m ob (ops ++ .objCondLogP id :: more)) id t := ⟨o, ho, hov⟩
  simp [step, objTensor_of_value hval]

/-! ### C09 -/

/-- **C09 (partial).** In every tame history, what `log_joint()` returns is the sum of the current
conditionals (or the user's function of them), cached or not.  Missing: histories that overwrite a
stochastic node, use the deprecated constructors or set `meta_bn.log_joint` while a log joint is
cached: there the code returns a stale value, see `C09_stale_*`. -/
theorem C09_log_joint_current_partial (ht : Tame env (State.init lo m ob) ops) (l : L)
    (h : (step env (hist env lo m ob ops) .logJoint).1 = .ok (.val l)) :
    JointIs env (step env (hist env lo m ob ops) .logJoint).2 l := by
  refine logJoint_current env _ (hist_inv env lo m ob ops) ?_ l h
  refine run_cacheOK env ops _ (init_inv env lo m ob) ?_ ht
  intro l hl
  simp [State.init] at hl

/-- **C09.** In *every* history, if the last modifying call was a successful `stochastic` the next
`log_joint()` is the current one. -/
theorem C09_after_stochastic (n : Name) (d : D) (r : Out V L) (l : L)
    (hr : (step env (hist env lo m ob ops) (.stochastic n d)).1 = .ok r)
    (h : (step env (hist env lo m ob (ops ++ [.stochastic n d])) .logJoint).1 = .ok (.val l)) :
    JointIs env (step env (hist env lo m ob (ops ++ [.stochastic n d])) .logJoint).2 l := by
  refine logJoint_current env _ (hist_inv env lo m ob _) ?_ l h
  have heq : hist env lo m ob (ops ++ [.stochastic n d]) =
      (step env (hist env lo m ob ops) (.stochastic n d)).2 := by
    unfold hist; rw [run_append]; rfl
  rw [heq]
  simp only [step, stochastic] at hr ⊢
  cases hc : (hist env lo m ob ops).nodes.get? n with
  | some r => simp [hc] at hr
  | none =>
    simp only
    split <;> intro l hl <;> simp at hl

/-- The stochastic nodes summed over are exactly the bound ones, each once. -/
theorem C09_sum_ranges_over_nodes :
    (∀ id, id ∈ stochIds (hist env lo m ob ops).nodes ↔
      ∃ n, (hist env lo m ob ops).nodes.get? n = some (.stoch id)) ∧
    (stochIds (hist env lo m ob ops).nodes).Nodup := by
  have hwf := (hist_inv env lo m ob ops).wf
  have hinj := C06_injective env lo m ob ops
  have hmem : ∀ n r, (n, r) ∈ (hist env lo m ob ops).nodes ↔
      (hist env lo m ob ops).nodes.get? n = some r := fun n r => (Dict.get?_eq_some_iff hwf).symm
  constructor
  · intro id
    simp only [stochIds, List.mem_filterMap]
    constructor
    · rintro ⟨⟨n, r⟩, hnr, hid⟩
      refine ⟨n, ?_⟩
      cases r with
      | det t => simp at hid
      | stoch id' => simp at hid; subst hid; exact (hmem _ _).1 hnr
    · rintro ⟨n, hn⟩
      exact ⟨(n, .stoch id), (hmem _ _).2 hn, rfl⟩
  · unfold stochIds
    have hp : (hist env lo m ob ops).nodes.Pairwise (fun a b => a.1 ≠ b.1) :=
      List.pairwise_map.1 hwf
    unfold List.Nodup
    rw [List.pairwise_filterMap]
    refine List.Pairwise.imp_of_mem ?_ hp
    rintro ⟨n, r⟩ ⟨n', r'⟩ ha hb hne x hx y hy rfl
    cases r with
    | det t => simp at hx
    | stoch i =>
      cases r' with
      | det t => simp at hy
      | stoch j =>
        simp only [Option.some.injEq] at hx hy
        subst hx
        subst hy
        exact hne (hinj n n' j ((hmem _ _).1 ha) ((hmem _ _).1 hb))

/-! ### C10 -/

/-- **C10.** `bn.get([...])` succeeds exactly when every item is a string naming a node, and then
returns those nodes in order. -/
theorem C10_get_list (ps : List PyName) (rs : List (Ref V)) :
    (step env (hist env lo m ob ops) (.get (.many ps))).1 = .ok (.nodes rs) ↔
      List.Forall₂ (GoodName (hist env lo m ob ops).nodes false) ps rs :=
  get_many _ ps rs

/-- **C10.** Otherwise it raises the error of the first bad item. -/
theorem C10_get_list_error (ps : List PyName) (e : Err) :
    (step env (hist env lo m ob ops) (.get (.many ps))).1 = .error e ↔
      FirstBad (hist env lo m ob ops).nodes false ps e :=
  get_error _ ps e

/-- **C10.** `bn[p]` and `bn.get(name)`. -/
theorem C10_get_one (p : PyName) (r : Ref V) :
    (step env (hist env lo m ob ops) (.getItem p)).1 = .ok (.node r) ↔
      GoodName (hist env lo m ob ops).nodes false p r := by
  simp only [step]
  cases hc : checkName (hist env lo m ob ops).nodes false p with
  | error e =>
    simp only [reduceCtorEq, false_iff]
    rintro ⟨n, rfl, hn, hs⟩
    have := (checkName_ok (n := n)).2 ⟨rfl, r, n, rfl, hn, hs⟩
    rw [hc] at this
    cases this
  | ok n =>
    obtain ⟨rfl, r', n', hn', hr', _⟩ := checkName_ok.1 hc
    cases hn'
    simp only [lookup, hr', Except.ok.injEq, Out.node.injEq, GoodName, PyName.str.injEq]
    constructor
    · rintro rfl; exact ⟨n, rfl, hr', by simp⟩
    · rintro ⟨n', rfl, hn', _⟩
      rw [hr'] at hn'
      exact Option.some.inj hn'

theorem C10_get_one_error (p : PyName) (e : Err) :
    (step env (hist env lo m ob ops) (.getItem p)).1 = .error e ↔
      BadName (hist env lo m ob ops).nodes false p e := by
  rw [← checkName_error]
  simp only [step]
  cases hc : checkName (hist env lo m ob ops).nodes false p with
  | error e => simp
  | ok n =>
    obtain ⟨rfl, r', n', hn', hr', _⟩ := checkName_ok.1 hc
    cases hn'
    simp [lookup, hr']

/-- **C10.** `cond_log_prob` on a list: bad names raise (also deterministic names), before anything
is evaluated. -/
theorem C10_cond_log_prob_bad (ps : List PyName) (e : Err)
    (h : FirstBad (hist env lo m ob ops).nodes true ps e) :
    step env (hist env lo m ob ops) (.condLogProb (.many ps)) = (.error e, hist env lo m ob ops) := by
  simp [step, condLogProb, checkNames, checkAll_error.2 h]

/-- **C10.** `cond_log_prob` on a list: the values are the conditionals of the named nodes, one per
name, in order. -/
theorem C10_cond_log_prob_list (ps : List PyName) (ls : List L)
    (h : (step env (hist env lo m ob ops) (.condLogProb (.many ps))).1 = .ok (.vals ls)) :
    ∃ ns, ps = ns.map .str ∧
      List.Forall₂ (NamedCondIs env (step env (hist env lo m ob ops) (.condLogProb (.many ps))).2)
        ns ls := by
  simp only [step, condLogProb, checkNames] at h ⊢
  cases hc : checkAll (hist env lo m ob ops).nodes true ps with
  | error e => simp [hc] at h
  | ok ns =>
    simp only [hc] at h ⊢
    refine ⟨ns, (checkAll_ok hc).1, ?_⟩
    obtain ⟨_, _, g3⟩ := comprehension_spec env (nodeCondLogP env) (NamedCondIs env)
      (fun s i hi => nodeCondLogP_spec env s i hi) (fun _ _ _ _ ha hv => hv.mono ha) ns _
      (hist_inv env lo m ob ops)
    rcases hcomp : comprehension (nodeCondLogP env) (hist env lo m ob ops) ns with ⟨r, s1⟩
    rw [hcomp] at g3 h
    cases r with
    | error e => simp at h
    | ok ls' =>
      simp only [Except.ok.injEq, Out.vals.injEq] at h
      subst h
      exact g3 _ rfl

/-- **C10.** A single name gives a single answer. -/
theorem C10_cond_log_prob_one (n : Name) (l : L)
    (h : (step env (hist env lo m ob ops) (.condLogProb (.one n))).1 = .ok (.val l)) :
    NamedCondIs env (step env (hist env lo m ob ops) (.condLogProb (.one n))).2 n l := by
  simp only [step, condLogProb, checkNames] at h ⊢
  cases hc : checkName (hist env lo m ob ops).nodes true (.str n) with
  | error e => simp [hc] at h
  | ok n' =>
    obtain ⟨hn', _⟩ := checkName_ok.1 hc
    cases hn'
    simp only [hc] at h ⊢
    obtain ⟨_, _, g3⟩ := nodeCondLogP_spec env _ n (hist_inv env lo m ob ops)
    rcases hcomp : nodeCondLogP env (hist env lo m ob ops) n with ⟨r, s1⟩
    rw [hcomp] at g3 h
    cases r with
    | error e => simp at h
    | ok ls' =>
      simp only [Except.ok.injEq, Out.val.injEq] at h
      subst h
      exact g3 _ rfl

/-- **C10.** The answers come in the shape that was asked for: a list of names never gives a scalar
answer and a single name never a list. -/
theorem C10_shape (a : NameArg) (o : Out V L)
    (h : (step env (hist env lo m ob ops) (.condLogProb a)).1 = .ok o) :
    match a with
    | .one _ => ∃ l, o = .val l
    | .many _ => ∃ ls, o = .vals ls
    | .notIterable => False := by
  cases a with
  | one n =>
    simp only [step, condLogProb, checkNames] at h
    cases hc : checkName (hist env lo m ob ops).nodes true (.str n) with
    | error e => simp [hc] at h
    | ok n' =>
      simp only [hc] at h
      rcases he : nodeCondLogP env (hist env lo m ob ops) n' with ⟨r, s1⟩
      rw [he] at h
      cases r with
      | error e => simp at h
      | ok l => exact ⟨l, by simpa using h.symm⟩
  | many ps =>
    simp only [step, condLogProb, checkNames] at h
    cases hc : checkAll (hist env lo m ob ops).nodes true ps with
    | error e => simp [hc] at h
    | ok ns =>
      simp only [hc] at h
      rcases he : comprehension (nodeCondLogP env) (hist env lo m ob ops) ns with ⟨r, s1⟩
      rw [he] at h
      cases r with
      | error e => simp at h
      | ok l => exact ⟨l, by simpa using h.symm⟩
  | notIterable => simp [step, condLogProb, checkNames] at h

/-- **C10.** Queries never change the nodes (nor the cached log joint). -/
theorem C10_queries_keep_nodes (op : Op V D L)
    (hop : match op with
      | .get _ | .getItem _ | .setItem _ | .condLogProb _ | .outputs _ | .query _ _ _
      | .tensor _ | .objCondLogP _ | .logJoint => True
      | _ => False) :
    (step env (hist env lo m ob ops) op).2.nodes = (hist env lo m ob ops).nodes := by
  have hi := hist_inv env lo m ob ops
  cases op with
  | stochastic n d => exact hop.elim
  | deterministic n t => exact hop.elim
  | legacy n d o => exact hop.elim
  | setLogJoint f => exact hop.elim
  | logJoint => exact (logJoint_nodes env _ hi).1
  | _ => exact (access_of_query env _ _ hi trivial).nodes

/-- **C10.** `outputs` on a list of stochastic names returns their values, in order. -/
theorem C10_outputs_list (ps : List PyName) (ts : List (Tensor V))
    (h : (step env (hist env lo m ob ops) (.outputs (.many ps))).1 = .ok (.tensors ts)) :
    ∃ ns, ps = ns.map .str ∧ List.Forall₂ (fun n t => ∃ id,
        (hist env lo m ob ops).nodes.get? n = some (.stoch id) ∧
        HasValue (step env (hist env lo m ob ops) (.outputs (.many ps))).2 id t) ns ts := by
  simp only [step, outputs, checkNames] at h ⊢
  cases hc : checkAll (hist env lo m ob ops).nodes false ps with
  | error e => simp [hc] at h
  | ok ns =>
    simp only [hc] at h ⊢
    refine ⟨ns, (checkAll_ok hc).1, ?_⟩
    obtain ⟨_, g2, g3⟩ := comprehension_spec env (nodeTensor env)
      (fun s n t => ∃ id, s.nodes.get? n = some (.stoch id) ∧ HasValue s id t)
      (fun s i hi => nodeTensor_spec env s i hi)
      (fun s s' n t ha ⟨id, h1, h2⟩ => ⟨id, by rw [ha.nodes]; exact h1, h2.mono ha.toGrow⟩) ns _
      (hist_inv env lo m ob ops)
    rcases hcomp : comprehension (nodeTensor env) (hist env lo m ob ops) ns with ⟨r, s1⟩
    rw [hcomp] at g2 g3 h
    cases r with
    | error e => simp at h
    | ok ls' =>
      simp only [Except.ok.injEq, Out.tensors.injEq] at h
      subst h
      have := g3 _ rfl
      simp only at this g2 ⊢
      rw [g2.nodes] at this
      exact this

/-- Helper: `outputs` on a list. -/
theorem outputs_many (s s' : State V D L) (hi : Inv env s) (ps : List PyName) (r : Out V L)
    (h : outputs env s (.many ps) = (.ok r, s')) :
    Inv env s' ∧ Access s s' ∧ ∃ ns ts, ps = ns.map .str ∧ r = .tensors ts ∧
      List.Forall₂ (fun n t => ∃ id, s'.nodes.get? n = some (.stoch id) ∧ HasValue s' id t) ns ts := by
  simp only [outputs, checkNames] at h
  cases hc : checkAll s.nodes false ps with
  | error e => simp [hc] at h
  | ok ns =>
    simp only [hc] at h
    obtain ⟨g1, g2, g3⟩ := comprehension_spec env (nodeTensor env)
      (fun s n t => ∃ id, s.nodes.get? n = some (.stoch id) ∧ HasValue s id t)
      (fun s i hi => nodeTensor_spec env s i hi)
      (fun s s' n t ha ⟨id, h1, h2⟩ => ⟨id, by rw [ha.nodes]; exact h1, h2.mono ha.toGrow⟩) ns _ hi
    rcases hcomp : comprehension (nodeTensor env) s ns with ⟨a, s1⟩
    rw [hcomp] at g1 g2 g3 h
    cases a with
    | error e => simp at h
    | ok ts =>
      simp only [Prod.mk.injEq, Except.ok.injEq] at h
      obtain ⟨rfl, rfl⟩ := h
      exact ⟨g1, g2, ns, ts, (checkAll_ok hc).1, rfl, g3 _ rfl⟩

/-- Helper: `cond_log_prob` on a list. -/
theorem condLogProb_many (s s' : State V D L) (hi : Inv env s) (ps : List PyName) (r : Out V L)
    (h : condLogProb env s (.many ps) = (.ok r, s')) :
    Inv env s' ∧ Access s s' ∧ ∃ ns ls, ps = ns.map .str ∧ r = .vals ls ∧
      List.Forall₂ (NamedCondIs env s') ns ls := by
  simp only [condLogProb, checkNames] at h
  cases hc : checkAll s.nodes true ps with
  | error e => simp [hc] at h
  | ok ns =>
    simp only [hc] at h
    obtain ⟨g1, g2, g3⟩ := comprehension_spec env (nodeCondLogP env) (NamedCondIs env)
      (fun s i hi => nodeCondLogP_spec env s i hi) (fun _ _ _ _ ha hv => hv.mono ha) ns _ hi
    rcases hcomp : comprehension (nodeCondLogP env) s ns with ⟨a, s1⟩
    rw [hcomp] at g1 g2 g3 h
    cases a with
    | error e => simp at h
    | ok ls =>
      simp only [Prod.mk.injEq, Except.ok.injEq] at h
      obtain ⟨rfl, rfl⟩ := h
      exact ⟨g1, g2, ns, ls, (checkAll_ok hc).1, rfl, g3 _ rfl⟩

theorem strs_inj {ns ns' : List Name} (h : ns.map PyName.str = ns'.map PyName.str) : ns = ns' :=
  List.map_injective_iff.2 (fun _ _ h => PyName.str.inj h) h

/-- **C10.** `query` on a list of names returns one row per name, in order, holding what was asked for: the
value, the log probability, or both. -/
theorem C10_query_list (ps : List PyName) (o l : Bool) (r : Out V L)
    (h : (step env (hist env lo m ob ops) (.query (.many ps) o l)).1 = .ok r) :
    (o = true ∨ l = true) ∧ ∃ ns rows, ps = ns.map .str ∧ r = .queryMany rows ∧
      List.Forall₂ (RowIs env (step env (hist env lo m ob ops) (.query (.many ps) o l)).2 o l)
        ns rows := by
  have hi := hist_inv env lo m ob ops
  generalize hist env lo m ob ops = s at *
  simp only [step, query] at h ⊢
  cases hc : checkNames s.nodes false (.many ps) with
  | error e => simp [hc] at h
  | ok nn =>
    simp only [hc] at h ⊢
    cases o with
    | false =>
      simp only [whenFlag, Bool.false_eq_true, if_false] at h ⊢
      cases l with
      | false => simp at h
      | true =>
        simp only [if_true] at h ⊢
        rcases hq : condLogProb env s (.many ps) with ⟨a, s1⟩
        rw [hq] at h
        cases a with
        | error e => simp at h
        | ok v =>
          obtain ⟨_, _, ns, ls, h3, rfl, h5⟩ := condLogProb_many env s s1 hi ps v hq
          simp only [Except.ok.injEq] at h ⊢
          subst h
          refine ⟨Or.inr trivial, ns, _, h3, rfl, ?_⟩
          simp only [zipRows]
          rw [List.forall₂_map_right_iff]
          exact h5.imp (fun n x ⟨id, g1, g2⟩ => ⟨id, g1, rfl, rfl, g2⟩)
    | true =>
      simp only [whenFlag, if_true] at h ⊢
      rcases hq : outputs env s (.many ps) with ⟨a, s1⟩
      rw [hq] at h
      cases a with
      | error e => simp at h
      | ok v =>
        obtain ⟨h1, h2, ns, ts, h3, rfl, h5⟩ := outputs_many env s s1 hi ps v hq
        cases l with
        | false =>
          simp only [Bool.false_eq_true, if_false, Except.ok.injEq] at h ⊢
          subst h
          refine ⟨Or.inl trivial, ns, _, h3, rfl, ?_⟩
          simp only [zipRows]
          rw [List.forall₂_map_right_iff]
          exact h5.imp (fun n x ⟨id, g1, g2⟩ => ⟨id, g1, ⟨rfl, g2⟩, rfl⟩)
        | true =>
          simp only [if_true] at h ⊢
          rcases hq2 : condLogProb env s1 (.many ps) with ⟨a, s2⟩
          rw [hq2] at h
          cases a with
          | error e => simp at h
          | ok v =>
            obtain ⟨_, k2, ns', ls, k3, rfl, k5⟩ := condLogProb_many env s1 s2 h1 ps v hq2
            have : ns' = ns := strs_inj (k3.symm.trans h3)
            subst this
            simp only [Except.ok.injEq] at h ⊢
            subst h
            refine ⟨Or.inl trivial, ns', _, h3, rfl, ?_⟩
            simp only [zipRows]
            rw [List.forall₂_map_right_iff]
            clear hq hq2 h3 k3 hc
            induction h5 generalizing ls with
            | nil => cases k5; exact List.Forall₂.nil
            | cons hx _ ih =>
              cases k5 with
              | cons hy hr =>
                refine List.Forall₂.cons ?_ (ih _ hr)
                obtain ⟨id, g1, g2⟩ := hx
                obtain ⟨id', g3, g4⟩ := hy
                rw [← k2.nodes, g3] at g1
                cases g1
                exact ⟨_, g3, ⟨rfl, g2.mono k2.toGrow⟩, rfl, g4⟩

/-- **C10.** `query` of a single name returns a single row. -/
theorem C10_query_one (n : Name) (o l : Bool) (r : Out V L)
    (h : (step env (hist env lo m ob ops) (.query (.one n) o l)).1 = .ok r) :
    (o = true ∨ l = true) ∧ ∃ t p, r = .queryOne t p ∧
      RowIs env (step env (hist env lo m ob ops) (.query (.one n) o l)).2 o l n (t, p) := by
  have hi := hist_inv env lo m ob ops
  generalize hist env lo m ob ops = s at *
  have houts : ∀ s s' : State V D L, Inv env s → ∀ v, outputs env s (.one n) = (.ok v, s') →
      Inv env s' ∧ Access s s' ∧ ∃ t id, v = .tensor t ∧ s'.nodes.get? n = some (.stoch id) ∧
        HasValue s' id t := by
    intro s s' hi v hq
    simp only [outputs, checkNames] at hq
    cases hc : checkName s.nodes false (.str n) with
    | error e => simp [hc] at hq
    | ok n' =>
      obtain ⟨hn', _⟩ := checkName_ok.1 hc
      cases hn'
      simp only [hc] at hq
      obtain ⟨g1, g2, g3⟩ := nodeTensor_spec env s n hi
      rcases hcomp : nodeTensor env s n with ⟨a, s1⟩
      rw [hcomp] at g1 g2 g3 hq
      cases a with
      | error e => simp at hq
      | ok t =>
        simp only [Prod.mk.injEq, Except.ok.injEq] at hq
        obtain ⟨rfl, rfl⟩ := hq
        obtain ⟨id, k1, k2⟩ := g3 _ rfl
        exact ⟨g1, g2, t, id, rfl, k1, k2⟩
  have hcond : ∀ s s' : State V D L, Inv env s → ∀ v, condLogProb env s (.one n) = (.ok v, s') →
      Access s s' ∧ ∃ x, v = .val x ∧ NamedCondIs env s' n x := by
    intro s s' hi v hq
    simp only [condLogProb, checkNames] at hq
    cases hc : checkName s.nodes true (.str n) with
    | error e => simp [hc] at hq
    | ok n' =>
      obtain ⟨hn', _⟩ := checkName_ok.1 hc
      cases hn'
      simp only [hc] at hq
      obtain ⟨_, g2, g3⟩ := nodeCondLogP_spec env s n hi
      rcases hcomp : nodeCondLogP env s n with ⟨a, s1⟩
      rw [hcomp] at g2 g3 hq
      cases a with
      | error e => simp at hq
      | ok t =>
        simp only [Prod.mk.injEq, Except.ok.injEq] at hq
        obtain ⟨rfl, rfl⟩ := hq
        exact ⟨g2, t, rfl, g3 _ rfl⟩
  simp only [step, query] at h ⊢
  cases hc : checkNames s.nodes false (.one n) with
  | error e => simp [hc] at h
  | ok nn =>
    simp only [hc] at h ⊢
    cases o with
    | false =>
      simp only [whenFlag, Bool.false_eq_true, if_false] at h ⊢
      cases l with
      | false => simp at h
      | true =>
        simp only [if_true] at h ⊢
        rcases hq : condLogProb env s (.one n) with ⟨a, s1⟩
        rw [hq] at h
        cases a with
        | error e => simp at h
        | ok v =>
          obtain ⟨_, x, rfl, id, h4, h5⟩ := hcond s s1 hi v hq
          simp only [Except.ok.injEq] at h ⊢
          exact ⟨Or.inr trivial, _, _, h.symm, id, h4, rfl, rfl, h5⟩
    | true =>
      simp only [whenFlag, if_true] at h ⊢
      rcases hq : outputs env s (.one n) with ⟨a, s1⟩
      rw [hq] at h
      cases a with
      | error e => simp at h
      | ok v =>
        obtain ⟨h1, h2, t, id, rfl, h5, h6⟩ := houts s s1 hi v hq
        cases l with
        | false =>
          simp only [Bool.false_eq_true, if_false, Except.ok.injEq] at h ⊢
          exact ⟨Or.inl trivial, _, _, h.symm, id, h5, ⟨rfl, h6⟩, rfl⟩
        | true =>
          simp only [if_true] at h ⊢
          rcases hq2 : condLogProb env s1 (.one n) with ⟨a, s2⟩
          rw [hq2] at h
          cases a with
          | error e => simp at h
          | ok v =>
            obtain ⟨k2, x, rfl, id', k4, k5⟩ := hcond s1 s2 h1 v hq2
            simp only [Except.ok.injEq] at h ⊢
            rw [← k2.nodes, k4] at h5
            cases h5
            exact ⟨Or.inl trivial, _, _, h.symm, _, k4, ⟨rfl, h6.mono k2.toGrow⟩, rfl, k5⟩

/-- **C10.** `query` with neither option is refused, whatever the names. -/
theorem C10_query_nothing (a : NameArg) :
    ∃ e, (step env (hist env lo m ob ops) (.query a false false)).1 = .error e := by
  simp only [step, query, whenFlag]
  cases checkNames (hist env lo m ob ops).nodes false a with
  | error e => exact ⟨e, rfl⟩
  | ok _ => exact ⟨_, rfl⟩

/-- Finding: the deprecated `outputs` accepts the name of a deterministic node and then fails with
`AttributeError`. -/
theorem C10_outputs_deterministic (n : Name) (t : Tensor V)
    (h : (hist env lo m ob ops).nodes.get? n = some (.det t)) :
    (step env (hist env lo m ob ops) (.outputs (.one n))).1 = .error .attributeError := by
  simp [step, outputs, checkNames, checkName, h, nodeTensor]

end

/-! ### Concrete histories -/

/-- Distributions are numbers; the log probability of an external value `v` under `d` is `d + v`, and of
the `k`-th draw `d + 100 k`. -/
def demo : Env ℕ ℕ ℕ where
  checkObs := fun d v => if v = 13 then none else some (v + 0 * d)
  canSample := fun _ => true
  logProb := fun d t => match t with
    | .ext v => some (d + v)
    | .draw _ k => some (d + 100 * k)

/-- A net with an observed `x`, two latents and a deterministic node. -/
def demoOps : List (Op ℕ ℕ ℕ) :=
  [.stochastic "x" 1, .stochastic "y" 2, .stochastic "z" 3, .deterministic "t" (.ext 0)]

abbrev demoHist := hist demo (some [("x", some 5)]) (some .unset) []

section

/-- `demoOps` is tame, and the log joint is `(1+5) + 2 + (3+100)`. -/
example : Tame demo (State.init (some [("x", some 5)]) (some .unset) []) demoOps ∧
    (step demo (demoHist demoOps) .logJoint).1 = .ok (.val 111) := by
  constructor
  · simp [demoOps, Tame, step, stochastic, State.init, getObservation, resolveObs, Dict.get?, demo,
      Dict.set]
  · rfl

/-- The duplicate `x` is refused. -/
example : (step demo (demoHist demoOps) (.get (.one "x"))).1 = .ok (.node (.stoch 0)) ∧
    (step demo (demoHist demoOps) (.stochastic "x" 9)).1 = .error .valueError := ⟨rfl, rfl⟩

/-- A rejected observation. -/
example : (step demo (hist demo (some [("x", some 13)]) none []
    [.stochastic "y" 2]) (.stochastic "x" 9)).1 = .error .valueError := rfl

/-- A list query and its errors. -/
example : (step demo (demoHist demoOps) (.get (.many [.str "t", .str "y"]))).1 =
      .ok (.nodes [.det (.ext 0), .stoch 1]) ∧
    (step demo (demoHist demoOps) (.condLogProb (.many [.str "z", .str "x"]))).1 =
      .ok (.vals [3, 6]) ∧
    (step demo (demoHist demoOps) (.condLogProb (.many [.str "z", .str "t"]))).1 =
      .error .valueError ∧
    (step demo (demoHist demoOps) (.get (.many [.str "q", .other]))).1 = .error .valueError :=
  ⟨rfl, rfl, rfl, rfl⟩

/-- Queries with one and with both options. -/
example : (step demo (demoHist demoOps) (.query (.many [.str "z", .str "x"]) true true)).1 =
      .ok (.queryMany [(some (.draw 2 0), some 3), (some (.ext 5), some 6)]) ∧
    (step demo (demoHist demoOps) (.query (.one "x") false true)).1 =
      .ok (.queryOne none (some 6)) := ⟨rfl, rfl⟩

/-- A draw is made once and reused. -/
example : (step demo (demoHist demoOps) (.tensor 1)).1 = .ok (.tensor (.draw 1 0)) ∧
    (demoHist (demoOps ++ [.tensor 1, .logJoint, .tensor 1])).draws = [1, 2] := ⟨rfl, rfl⟩

/-- Finding (C09): after `deterministic` replaces a stochastic node, `log_joint()` still returns the
cached sum with the vanished node's conditional. -/
theorem C09_stale_after_deterministic :
    let s := demoHist [.stochastic "x" 1, .stochastic "y" 2, .logJoint, .deterministic "x" (.ext 0)]
    (step demo s .logJoint).1 = .ok (.val 8) ∧ ¬ JointIs demo (step demo s .logJoint).2 8 := by
  refine ⟨rfl, ?_⟩
  rintro ⟨ls, hls, hsum⟩
  change List.Forall₂ _ [1] ls at hls
  cases hls with
  | cons h1 h2 =>
    cases h2
    obtain ⟨o, t, ho, hv, hl⟩ := h1
    simp only [List.sum_cons, List.sum_nil] at hsum
    cases ho
    cases hv
    cases hl
    change 8 = 2 at hsum
    simp at hsum

/-- Finding (C09): setting `meta_bn.log_joint` after a `log_joint()` has no effect. -/
theorem C09_stale_after_set :
    let s := demoHist [.stochastic "x" 1, .logJoint, .setLogJoint (.callable [] (fun _ => 42))]
    (step demo s .logJoint).1 = .ok (.val 6) ∧ ¬ JointIs demo (step demo s .logJoint).2 6 := by
  refine ⟨rfl, ?_⟩
  rintro ⟨ls, hls, hsum⟩
  simp at hsum

/-- Finding (C09): a node added by a deprecated constructor after a `log_joint()` is left out. -/
theorem C09_stale_after_legacy :
    let s := demoHist [.stochastic "x" 1, .logJoint, .legacy "y" 2 (some 7)]
    (step demo s .logJoint).1 = .ok (.val 6) ∧ ¬ JointIs demo (step demo s .logJoint).2 6 := by
  refine ⟨rfl, ?_⟩
  rintro ⟨ls, hls, hsum⟩
  change List.Forall₂ _ [0, 1] ls at hls
  cases hls with
  | cons h1 h2 =>
    cases h2 with
    | cons h2 h3 =>
      cases h3
      obtain ⟨o, t, ho, hv, hl⟩ := h1
      obtain ⟨o', t', ho', hv', hl'⟩ := h2
      simp only [List.sum_cons, List.sum_nil] at hsum
      cases ho; cases hv; cases hl; cases ho'; cases hv'; cases hl'
      simp at hsum

end

end ZhuSuan.BN
