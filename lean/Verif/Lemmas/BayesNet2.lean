import Verif.Lemmas.BayesNet

/-! Further lemmas on nets: names, caches, queries. -/

set_option linter.unusedSectionVars false
set_option autoImplicit false

namespace ZhuSuan.BN

variable {V D L : Type}

theorem objTensor_of_value {env : Env V D L} {s : State V D L} {id : ℕ} {t : Tensor V}
    (h : HasValue s id t) : objTensor env s id = (.ok t, s) := by
  obtain ⟨o, ho, hov⟩ := h
  unfold objTensor
  rw [ho]
  unfold Obj.value at hov
  cases hr : o.ready with
  | false => simp [hr] at hov
  | true =>
    simp only [hr, if_true] at hov
    cases hobs : o.observation with
    | some v =>
      simp only [hobs, Option.map_some, Option.some_or, Option.some.injEq] at hov
      simp [hr, hobs, ← hov]
    | none =>
      simp only [hobs, Option.map_none, Option.none_or] at hov
      simp [hr, hobs, hov]

/-- `query`, `outputs`, ... never touch the nodes. -/
theorem access_of_query [AddCommMonoid L] (env : Env V D L) (s : State V D L) (op : Op V D L)
    (h : Inv env s)
    (hop : match op with
      | .stochastic _ _ | .deterministic _ _ | .legacy _ _ _ | .setLogJoint _ | .logJoint => False
      | _ => True) : Access s (step env s op).2 := by
  cases op with
  | stochastic n d => exact hop.elim
  | deterministic n t => exact hop.elim
  | legacy n d o => exact hop.elim
  | setLogJoint f => exact hop.elim
  | logJoint => exact hop.elim
  | get a => exact Access.refl s
  | getItem p => exact Access.refl s
  | setItem n => exact Access.refl s
  | condLogProb a => exact (condLogProb_spec env s a h).2
  | outputs a => exact (outputs_spec env s a h).2
  | query a o l => exact (query_spec env s a o l h).2
  | tensor id =>
    obtain ⟨_, h2, _⟩ := objTensor_spec env s id h
    simp only [step]
    split <;> rename_i heq <;> rw [heq] at h2 <;> exact h2
  | objCondLogP id =>
    obtain ⟨_, h2, _⟩ := objCondLogP_spec env s id h
    simp only [step]
    split <;> rename_i heq <;> rw [heq] at h2 <;> exact h2

theorem logJoint_nodes [AddCommMonoid L] (env : Env V D L) (s : State V D L) (h : Inv env s) :
    (step env s .logJoint).2.nodes = s.nodes ∧ (step env s .logJoint).2.metaLJ = s.metaLJ := by
  simp only [step, logJoint]
  cases hc : s.cache with
  | some l => exact ⟨rfl, rfl⟩
  | none =>
    obtain ⟨_, h2, _⟩ := logJointFresh_spec env s h
    rcases he : logJointFresh env s with ⟨r, s1⟩
    rw [he] at h2
    cases r <;> exact ⟨h2.nodes, h2.metaLJ⟩

/-- What an operation does to the binding of a name. -/
theorem step_nodes [AddCommMonoid L] (env : Env V D L) (s : State V D L) (op : Op V D L) (n : Name)
    (h : Inv env s)
    (hdet : ∀ t, op ≠ .deterministic n t) (hleg : ∀ d o, op ≠ .legacy n d o)
    (hn : (s.nodes.get? n).isSome) : (step env s op).2.nodes.get? n = s.nodes.get? n := by
  cases op with
  | stochastic m d =>
    simp only [step, stochastic]
    cases hm : s.nodes.get? m with
    | some r => rfl
    | none =>
      have hmn : m ≠ n := by rintro rfl; simp [hm] at hn
      simp only
      split
      · rfl
      · simp [Dict.get?_set, hmn]
  | deterministic m t =>
    have hmn : m ≠ n := by rintro rfl; exact hdet t rfl
    simp [step, deterministic, Dict.get?_set, hmn]
  | legacy m d o =>
    have hmn : m ≠ n := by rintro rfl; exact hleg d o rfl
    simp only [step, legacy]
    split <;> simp [Dict.get?_set, hmn]
  | setLogJoint f => simp only [step]; cases s.metaLJ <;> rfl
  | logJoint => rw [(logJoint_nodes env s h).1]
  | get a => rfl
  | getItem p => rfl
  | setItem m => rfl
  | condLogProb a => rw [(access_of_query env s _ h trivial).nodes]
  | outputs a => rw [(access_of_query env s _ h trivial).nodes]
  | query a o l => rw [(access_of_query env s _ h trivial).nodes]
  | tensor id => rw [(access_of_query env s _ h trivial).nodes]
  | objCondLogP id => rw [(access_of_query env s _ h trivial).nodes]

/-- Every stochastic binding points to an object carrying the bound name. -/
def Named (s : State V D L) : Prop :=
  ∀ n id, s.nodes.get? n = some (.stoch id) → ∃ o, s.heap[id]? = some o ∧ o.name = n

theorem Named.of_grow {s s' : State V D L} (h : Named s) (hg : Grow s s')
    (hn : s'.nodes = s.nodes) : Named s' := by
  intro n id hid
  rw [hn] at hid
  obtain ⟨o, ho, hname⟩ := h n id hid
  obtain ⟨o', ho', hle⟩ := hg.obj id o ho
  exact ⟨o', ho', hle.name.trans hname⟩

theorem Named.push {s : State V D L} (h : Named s) (hrefs : ∀ n id, s.nodes.get? n = some (.stoch id) →
    id < s.heap.length) (o : Obj V D L) :
    Named { s with heap := s.heap ++ [o], nodes := s.nodes.set o.name (.stoch s.heap.length) } := by
  intro n id hid
  simp only [Dict.get?_set] at hid
  by_cases hn : o.name = n
  · simp only [hn, if_true, Option.some.injEq, Ref.stoch.injEq] at hid
    subst hid
    exact ⟨o, by simp, hn⟩
  · rw [if_neg hn] at hid
    obtain ⟨o', ho', hname⟩ := h n id hid
    refine ⟨o', ?_, hname⟩
    simp only
    rw [List.getElem?_append_left (hrefs n id hid)]
    exact ho'

theorem step_named [AddCommMonoid L] (env : Env V D L) (s : State V D L) (op : Op V D L)
    (h : Inv env s) (hn : Named s) : Named (step env s op).2 := by
  have hg := (step_inv env s op h).2
  cases op with
  | stochastic m d =>
    simp only [step, stochastic]
    cases hm : s.nodes.get? m with
    | some r => exact hn
    | none =>
      simp only
      split
      · exact hn
      · rename_i o _
        exact Named.push (s := { s with cache := none }) hn h.refs
          { name := m, dist := d, ready := true, observation := o, samples := none,
            condLogP := none }
  | deterministic m t =>
    intro n id hid
    simp only [step, deterministic, Dict.get?_set] at hid
    by_cases hmn : m = n
    · simp [hmn] at hid
    · rw [if_neg hmn] at hid
      exact hn n id hid
  | legacy m d o =>
    simp only [step, legacy]
    split
    · exact Named.push hn h.refs { name := m, dist := d, ready := false, observation := none,
                                   samples := none, condLogP := none }
    · rename_i ob _
      exact Named.push hn h.refs { name := m, dist := d, ready := true, observation := ob,
                                   samples := none, condLogP := none }
  | setLogJoint f => exact hn.of_grow hg (by simp only [step]; cases s.metaLJ <;> rfl)
  | logJoint => exact hn.of_grow hg (logJoint_nodes env s h).1
  | get a => exact hn
  | getItem p => exact hn
  | setItem m => exact hn
  | condLogProb a => exact hn.of_grow hg (access_of_query env s _ h trivial).nodes
  | outputs a => exact hn.of_grow hg (access_of_query env s _ h trivial).nodes
  | query a o l => exact hn.of_grow hg (access_of_query env s _ h trivial).nodes
  | tensor id => exact hn.of_grow hg (access_of_query env s _ h trivial).nodes
  | objCondLogP id => exact hn.of_grow hg (access_of_query env s _ h trivial).nodes

theorem run_named [AddCommMonoid L] (env : Env V D L) (ops : List (Op V D L)) (s : State V D L)
    (h : Inv env s) (hn : Named s) : Named (run env s ops) := by
  induction ops generalizing s with
  | nil => exact hn
  | cons op ops ih => exact ih _ (step_inv env s op h).1 (step_named env s op h hn)

theorem run_append [AddCommMonoid L] (env : Env V D L) (s : State V D L) (a b : List (Op V D L)) :
    run env s (a ++ b) = run env (run env s a) b := by simp [run]

/-! ### Names in queries -/

theorem checkName_ok {nodes : Dict Name (Ref V)} {only : Bool} {p : PyName} {n : Name} :
    checkName nodes only p = .ok n ↔
      p = .str n ∧ ∃ r, GoodName nodes only p r := by
  unfold checkName GoodName
  cases p with
  | other => simp
  | str m =>
    simp only [PyName.str.injEq]
    cases hm : nodes.get? m with
    | none =>
      simp only [reduceCtorEq, false_iff, not_and, not_exists]
      intro _ r n' hn'
      subst hn'
      simp [hm]
    | some r =>
      cases r with
      | stoch id =>
        simp only [Except.ok.injEq]
        exact ⟨fun h => ⟨h, .stoch id, m, rfl, hm, fun _ => ⟨id, rfl⟩⟩, fun h => h.1⟩
      | det t =>
        simp only
        cases only with
        | true =>
          simp only [if_true, reduceCtorEq, false_iff]
          rintro ⟨_, r, n', hn', hr, hcon⟩
          subst hn'
          rw [hm] at hr
          cases hr
          obtain ⟨id, hid⟩ := hcon trivial
          cases hid
        | false =>
          simp only [Bool.false_eq_true, if_false, Except.ok.injEq]
          exact ⟨fun h => ⟨h, .det t, m, rfl, hm, by simp⟩, fun h => h.1⟩

theorem checkName_error {nodes : Dict Name (Ref V)} {only : Bool} {p : PyName} {e : Err} :
    checkName nodes only p = .error e ↔ BadName nodes only p e := by
  constructor
  · intro h
    unfold checkName at h
    cases p with
    | other => simp only [Except.error.injEq] at h; subst h; exact .notString
    | str m =>
      simp only at h
      cases hm : nodes.get? m with
      | none => rw [hm] at h; simp only [Except.error.injEq] at h; subst h; exact .unknown m hm
      | some r =>
        rw [hm] at h
        cases r with
        | stoch id => simp at h
        | det t =>
          cases only with
          | true =>
            simp only [if_true, Except.error.injEq] at h
            subst h
            exact .det m t rfl hm
          | false => simp at h
  · intro h
    cases h with
    | notString => rfl
    | unknown n hn => simp [checkName, hn]
    | det n t ho hn => simp [checkName, hn, ho]

theorem checkAll_error {nodes : Dict Name (Ref V)} {only : Bool} {ps : List PyName} {e : Err} :
    checkAll nodes only ps = .error e ↔ FirstBad nodes only ps e := by
  induction ps with
  | nil => simp [checkAll, FirstBad]
  | cons p ps ih =>
    simp only [checkAll]
    cases hp : checkName nodes only p with
    | error e' =>
      have hb := checkName_error.1 hp
      simp only [Except.error.injEq]
      constructor
      · rintro rfl
        exact ⟨[], p, ps, rfl, by simp, hb⟩
      · rintro ⟨pre, q, post, heq, hpre, hq⟩
        cases pre with
        | nil =>
          simp only [List.nil_append, List.cons.injEq] at heq
          obtain ⟨rfl, _⟩ := heq
          have := checkName_error.2 hq
          rw [hp] at this
          exact Except.error.inj this
        | cons q' pre =>
          simp only [List.cons_append, List.cons.injEq] at heq
          obtain ⟨rfl, _⟩ := heq
          obtain ⟨r, n, rfl, hr⟩ := hpre p (by simp)
          have := (checkName_ok (n := n)).2 ⟨rfl, r, n, rfl, hr⟩
          rw [hp] at this
          cases this
    | ok n =>
      obtain ⟨hpn, hgood⟩ := checkName_ok.1 hp
      have key : FirstBad nodes only (p :: ps) e ↔ FirstBad nodes only ps e := by
        constructor
        · rintro ⟨pre, q, post, heq, hpre, hq⟩
          cases pre with
          | nil =>
            simp only [List.nil_append, List.cons.injEq] at heq
            obtain ⟨rfl, _⟩ := heq
            have := checkName_error.2 hq
            rw [hp] at this
            cases this
          | cons q' pre =>
            simp only [List.cons_append, List.cons.injEq] at heq
            exact ⟨pre, q, post, heq.2, fun x hx => hpre x (by simp [hx]), hq⟩
        · rintro ⟨pre, q, post, heq, hpre, hq⟩
          refine ⟨p :: pre, q, post, by simp [heq], ?_, hq⟩
          intro x hx
          rcases List.mem_cons.1 hx with rfl | hx
          · exact hgood
          · exact hpre x hx
      rw [key, ← ih]
      simp only
      cases checkAll nodes only ps <;> simp

theorem checkAll_ok {nodes : Dict Name (Ref V)} {only : Bool} {ps : List PyName} {ns : List Name}
    (h : checkAll nodes only ps = .ok ns) :
    ps = ns.map .str ∧ ∃ rs, List.Forall₂ (GoodName nodes only) ps rs ∧
      List.Forall₂ (fun n r => nodes.get? n = some r) ns rs := by
  induction ps generalizing ns with
  | nil =>
    simp only [checkAll, Except.ok.injEq] at h
    subst h
    exact ⟨rfl, [], .nil, .nil⟩
  | cons p ps ih =>
    simp only [checkAll] at h
    cases hp : checkName nodes only p with
    | error e => simp [hp] at h
    | ok n =>
      simp only [hp] at h
      cases hps : checkAll nodes only ps with
      | error e => simp [hps] at h
      | ok ns' =>
        simp only [hps, Except.ok.injEq] at h
        subst h
        obtain ⟨h1, r, h2⟩ := checkName_ok.1 hp
        obtain ⟨h3, rs, h4, h5⟩ := ih hps
        refine ⟨by simp [h1, h3], r :: rs, .cons h2 h4, .cons ?_ h5⟩
        obtain ⟨n', hn', hr, _⟩ := h2
        rw [h1] at hn'
        cases hn'
        exact hr

theorem mapM_lookup {nodes : Dict Name (Ref V)} {ns : List Name} {rs : List (Ref V)}
    (h : List.Forall₂ (fun n r => nodes.get? n = some r) ns rs) :
    ns.mapM (lookup nodes) = .ok rs := by
  induction h with
  | nil => rfl
  | cons h1 _ ih =>
    rw [List.mapM_cons, ih]
    simp [lookup, h1, bind, Except.bind, pure, Except.pure]

theorem get_many (s : State V D L) (ps : List PyName) (rs : List (Ref V)) :
    get s (.many ps) = (.ok (.nodes rs) : Except Err (Out V L)) ↔
      List.Forall₂ (GoodName s.nodes false) ps rs := by
  unfold get checkNames
  cases hc : checkAll s.nodes false ps with
  | error e =>
    simp only [hc, reduceCtorEq, false_iff]
    obtain ⟨pre, p, post, rfl, hpre, hbad⟩ := checkAll_error.1 hc
    intro hf
    obtain ⟨r, n, rfl, hn, _⟩ : ∃ r, GoodName s.nodes false p r := by
      clear hc hpre
      induction pre generalizing rs with
      | nil => cases hf with | cons h1 _ => exact ⟨_, h1⟩
      | cons q pre ih => cases hf with | cons _ h2 => exact ih _ h2
    cases hbad with
    | unknown _ hn' => rw [hn'] at hn; cases hn
    | det _ _ hcon _ => cases hcon
  | ok ns =>
    obtain ⟨hps, rs', h1, h2⟩ := checkAll_ok hc
    simp only [hc, mapM_lookup h2, Except.ok.injEq, Out.nodes.injEq]
    constructor
    · rintro rfl; exact h1
    · intro h
      clear hc hps h2
      induction h1 generalizing rs with
      | nil => cases h; rfl
      | cons g1 g2 ih =>
        cases h with
        | cons k1 k2 =>
          rw [ih _ k2]
          congr 1
          obtain ⟨n, rfl, hn, _⟩ := g1
          obtain ⟨n', hn', hn2, _⟩ := k1
          cases hn'
          rw [hn] at hn2
          exact Option.some.inj hn2

theorem get_error (s : State V D L) (ps : List PyName) (e : Err) :
    get s (.many ps) = (.error e : Except Err (Out V L)) ↔ FirstBad s.nodes false ps e := by
  rw [← checkAll_error]
  unfold get checkNames
  cases hc : checkAll s.nodes false ps with
  | error e' => simp [hc]
  | ok ns =>
    obtain ⟨_, rs, _, h2⟩ := checkAll_ok hc
    simp [hc, mapM_lookup h2]

/-! ### The cached log joint -/

/-- The cached log joint is the current one. -/
def CacheOK [AddCommMonoid L] (env : Env V D L) (s : State V D L) : Prop :=
  ∀ l, s.cache = some l → JointIs env s l

theorem JointIs.mono [AddCommMonoid L] {env : Env V D L} {s s' : State V D L} (h : Grow s s')
    (hn : s'.nodes = s.nodes) (hm : s'.metaLJ = s.metaLJ) {l : L} (hj : JointIs env s l) :
    JointIs env s' l := by
  unfold JointIs at *
  rw [hm, hn]
  cases hml : s.metaLJ with
  | none =>
    rw [hml] at hj
    obtain ⟨ls, h1, h2⟩ := hj
    exact ⟨ls, h1.imp (fun _ _ hc => hc.mono h), h2⟩
  | some lj =>
    rw [hml] at hj
    cases lj with
    | unset =>
      obtain ⟨ls, h1, h2⟩ := hj
      exact ⟨ls, h1.imp (fun _ _ hc => hc.mono h), h2⟩
    | nonCallable => exact hj
    | callable names combine =>
      obtain ⟨ls, h1, h2⟩ := hj
      refine ⟨ls, h1.imp (fun _ _ hc => ?_), h2⟩
      obtain ⟨id, g1, g2⟩ := hc
      exact ⟨id, by rw [hn]; exact g1, g2.mono h⟩

theorem stochIds_set_det (nodes : Dict Name (Ref V)) (n : Name) (t : Tensor V)
    (h : ∀ id, nodes.get? n ≠ some (.stoch id)) :
    stochIds (nodes.set n (.det t)) = stochIds nodes := by
  induction nodes with
  | nil => rfl
  | cons kv nodes ih =>
    obtain ⟨k, v⟩ := kv
    by_cases hk : k = n
    · subst hk
      cases v with
      | stoch id => exact absurd (by simp [Dict.get?]) (h id)
      | det t' => simp [Dict.set, stochIds]
    · have h' : ∀ id, Dict.get? nodes n ≠ some (.stoch id) := by
        intro id
        have := h id
        simpa [Dict.get?, hk] using this
      have := ih h'
      simp only [Dict.set, hk, if_false]
      simp only [stochIds, List.filterMap_cons] at this ⊢
      rw [this]

theorem step_cacheOK [AddCommMonoid L] (env : Env V D L) (s : State V D L) (op : Op V D L)
    (h : Inv env s) (hc : CacheOK env s)
    (htame : match op with
      | .deterministic n _ => ∀ id, s.nodes.get? n ≠ some (.stoch id)
      | .legacy _ _ _ => s.cache = none
      | .setLogJoint _ => s.cache = none
      | _ => True) : CacheOK env (step env s op).2 := by
  have hg := (step_inv env s op h).2
  have haccess : Access s (step env s op).2 → CacheOK env (step env s op).2 := by
    intro ha l hl
    rw [ha.cache] at hl
    exact (hc l hl).mono ha.toGrow ha.nodes ha.metaLJ
  cases op with
  | stochastic m d =>
    simp only [step, stochastic]
    cases hm : s.nodes.get? m with
    | some r => exact hc
    | none =>
      simp only
      split <;> intro l hl <;> simp at hl
  | deterministic m t =>
    intro l hl
    have hj := hc l hl
    simp only [step, deterministic] at hg ⊢
    unfold JointIs at *
    have hcond : ∀ id l', CondIs env s id l' →
        CondIs env { s with nodes := s.nodes.set m (.det t) } id l' := fun _ _ hcc => hcc.mono hg
    simp only
    rw [stochIds_set_det _ _ _ htame]
    cases hml : s.metaLJ with
    | none =>
      rw [hml] at hj
      obtain ⟨ls, h1, h2⟩ := hj
      exact ⟨ls, h1.imp (fun _ _ hcc => hcond _ _ hcc), h2⟩
    | some lj =>
      rw [hml] at hj
      cases lj with
      | unset =>
        obtain ⟨ls, h1, h2⟩ := hj
        exact ⟨ls, h1.imp (fun _ _ hcc => hcond _ _ hcc), h2⟩
      | nonCallable => exact hj
      | callable names combine =>
        obtain ⟨ls, h1, h2⟩ := hj
        refine ⟨ls, h1.imp (fun n' _ hcc => ?_), h2⟩
        obtain ⟨id, g1, g2⟩ := hcc
        have hmn : m ≠ n' := by rintro rfl; exact htame id g1
        exact ⟨id, by simp [Dict.get?_set, hmn, g1], hcond _ _ g2⟩
  | legacy m d o =>
    simp only [step, legacy]
    have htame' : s.cache = none := htame
    split <;> intro l hl <;> simp [htame'] at hl
  | setLogJoint f =>
    have htame' : s.cache = none := htame
    simp only [step]
    cases s.metaLJ <;> intro l hl <;> simp [htame'] at hl
  | logJoint =>
    simp only [step, logJoint]
    cases hcache : s.cache with
    | some l => exact hc
    | none =>
      obtain ⟨_, h2, h3⟩ := logJointFresh_spec env s h
      rcases he : logJointFresh env s with ⟨r, s1⟩
      rw [he] at h2 h3
      cases r with
      | error e =>
        intro l hl
        simp only at hl h2
        rw [h2.cache, hcache] at hl
        cases hl
      | ok l0 =>
        intro l hl
        simp only [Option.some.injEq] at hl
        subst hl
        have := h3 l0 rfl
        refine this.mono ⟨Nat.le_refl _, fun _ o ho => ⟨o, ho, Obj.Le.refl o⟩, ⟨[], ?_⟩, rfl, rfl⟩
          rfl rfl
        simp
  | get a => exact hc
  | getItem p => exact hc
  | setItem m => exact hc
  | condLogProb a => exact haccess (access_of_query env s _ h trivial)
  | outputs a => exact haccess (access_of_query env s _ h trivial)
  | query a o l => exact haccess (access_of_query env s _ h trivial)
  | tensor id => exact haccess (access_of_query env s _ h trivial)
  | objCondLogP id => exact haccess (access_of_query env s _ h trivial)

theorem run_cacheOK [AddCommMonoid L] (env : Env V D L) (ops : List (Op V D L)) (s : State V D L)
    (h : Inv env s) (hc : CacheOK env s) (ht : Tame env s ops) : CacheOK env (run env s ops) := by
  induction ops generalizing s with
  | nil => exact hc
  | cons op ops ih =>
    exact ih _ (step_inv env s op h).1 (step_cacheOK env s op h hc ht.1) ht.2

/-- The result of `log_joint()` is right when the cache is. -/
theorem logJoint_current [AddCommMonoid L] (env : Env V D L) (s : State V D L) (h : Inv env s)
    (hc : CacheOK env s) (l : L) (hl : (step env s .logJoint).1 = .ok (.val l)) :
    JointIs env (step env s .logJoint).2 l := by
  have hc' := step_cacheOK env s .logJoint h hc trivial
  apply hc'
  simp only [step, logJoint] at hl ⊢
  cases hcache : s.cache with
  | some l' => simp only [hcache, Except.ok.injEq, Out.val.injEq] at hl ⊢; rw [hl]
  | none =>
    rw [hcache] at hl
    rcases he : logJointFresh env s with ⟨r, s1⟩
    rw [he] at hl
    cases r with
    | error e => simp at hl
    | ok l0 => simp only [Except.ok.injEq, Out.val.injEq] at hl ⊢; rw [hl]

end ZhuSuan.BN
