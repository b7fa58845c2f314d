import Mathlib.Analysis.SpecialFunctions.Log.ENNRealLogExp
import Verif.Lemmas.BayesNet2
import Verif.Props.BayesNet
import Verif.Spec.Program

/-!
# Lemmas on the distribution of a net
-/

set_option autoImplicit false

namespace ZhuSuan.BN
open scoped ENNReal
open MeasureTheory

variable {V W X L : Type}

/-- Nothing but draws and cached values is added. -/
structure Still {D : Type} (s s' : State V D L) : Prop extends Grow s s' where
  nodes : s'.nodes = s.nodes
  metaLJ : s'.metaLJ = s.metaLJ
  len_eq : s'.heap.length = s.heap.length

theorem Access.still {D : Type} {s s' : State V D L} (h : Access s s') : Still s s' :=
  ⟨h.toGrow, h.nodes, h.metaLJ, h.len_eq⟩

theorem logJoint_still {D : Type} [AddCommMonoid L] (env : Env V D L) (s : State V D L)
    (hi : Inv env s) : Still s (step env s .logJoint).2 := by
  simp only [step, logJoint]
  cases hc : s.cache with
  | some l => exact (Access.refl s).still
  | none =>
    obtain ⟨_, h2, _⟩ := logJointFresh_spec env s hi
    rcases hf : logJointFresh env s with ⟨r, s1⟩
    rw [hf] at h2
    cases r with
    | error e => exact h2.still
    | ok l =>
      have := h2.still
      exact ⟨⟨this.len, this.obj, this.draws, this.localObs, this.observed⟩, this.nodes,
        this.metaLJ, this.len_eq⟩

/-- What holds in causal histories. -/
structure NetInv (s : State V (Dist V X) L) : Prop where
  named : ∀ id, id < s.heap.length → ∃ n, s.nodes.get? n = some (.stoch id)
  ready : ∀ (id : ℕ) (o : Obj V (Dist V X) L), s.heap[id]? = some o → o.ready = true
  params : ∀ (id : ℕ) (o : Obj V (Dist V X) L), s.heap[id]? = some o →
    ∀ j k, Tensor.draw j k ∈ o.dist.params → j ∈ s.draws
  order : ∀ pre id post, s.draws = pre ++ id :: post → ∀ o : Obj V (Dist V X) L,
    s.heap[id]? = some o → ∀ j k, Tensor.draw j k ∈ o.dist.params → j ∈ pre

theorem NetInv.mono {env : Env V (Dist V X) L} {s s' : State V (Dist V X) L} (hi' : Inv env s')
    (hs : Still s s') (h : NetInv s) : NetInv s' := by
  have back : ∀ (id : ℕ) (o' : Obj V (Dist V X) L), s'.heap[id]? = some o' →
      ∃ o : Obj V (Dist V X) L, s.heap[id]? = some o ∧ Obj.Le o o' := by
    intro id o' ho'
    have hlt : id < s.heap.length := by
      rw [← hs.len_eq]; exact (List.getElem?_eq_some_iff.1 ho').1
    obtain ⟨o2, h1, h2⟩ := hs.obj id _ (List.getElem?_eq_getElem hlt)
    rw [ho'] at h1
    cases h1
    exact ⟨_, List.getElem?_eq_getElem hlt, h2⟩
  obtain ⟨extra, hex⟩ := hs.draws
  refine ⟨fun id hid => ?_, fun id o' ho' => ?_, fun id o' ho' j k hj => ?_,
    fun pre id post hd o' ho' j k hj => ?_⟩
  · rw [hs.nodes]; exact h.named id (by rw [← hs.len_eq]; exact hid)
  · obtain ⟨o, ho, hle⟩ := back id o' ho'
    rw [hle.ready]; exact h.ready id o ho
  · obtain ⟨o, ho, hle⟩ := back id o' ho'
    rw [hle.dist] at hj
    rw [hex]
    exact List.mem_append_left _ (h.params id o ho j k hj)
  · obtain ⟨o, ho, hle⟩ := back id o' ho'
    rw [hle.dist] at hj
    rw [hex] at hd
    rcases List.append_eq_append_iff.1 hd with ⟨as, h1, h2⟩ | ⟨bs, h1, h2⟩
    · rw [h1]
      exact List.mem_append_left _ (h.params id o ho j k hj)
    · cases bs with
      | nil =>
        simp only [List.append_nil] at h1
        rw [← h1]; exact h.params id o ho j k hj
      | cons b bs =>
        simp only [List.cons_append, List.cons.injEq] at h2
        obtain ⟨rfl, rfl⟩ := h2
        exact h.order pre id bs h1 o ho j k hj

theorem stochastic_netInv (env : Env V (Dist V X) L) (s : State V (Dist V X) L) (n : Name)
    (d : Dist V X) (hi : Inv env s) (h : NetInv s)
    (hd : ∀ j k, Tensor.draw j k ∈ d.params → j ∈ s.draws) :
    NetInv (stochastic env s n d).2 := by
  unfold stochastic
  cases hn : s.nodes.get? n with
  | some r => exact h
  | none =>
    simp only
    split
    · exact ⟨h.named, h.ready, h.params, h.order⟩
    · rename_i o ho
      have hheap : ∀ (id : ℕ) (o' x : Obj V (Dist V X) L), (s.heap ++ [x])[id]? = some o' →
          s.heap[id]? = some o' ∨ (id = s.heap.length ∧ o' = x) := by
        intro id o' x hx
        rcases lt_trichotomy id s.heap.length with hlt | heq | hgt
        · rw [List.getElem?_append_left hlt] at hx; exact Or.inl hx
        · subst heq
          simp at hx
          exact Or.inr ⟨rfl, hx.symm⟩
        · rw [List.getElem?_eq_none (by simp; omega)] at hx
          cases hx
      refine ⟨fun id hid => ?_, fun id o' ho' => ?_, fun id o' ho' j k hj => ?_,
        fun pre id post hdr o' ho' j k hj => ?_⟩
      · simp only [List.length_append, List.length_cons, List.length_nil] at hid
        rcases Nat.lt_succ_iff_lt_or_eq.1 hid with hlt | rfl
        · obtain ⟨m, hm⟩ := h.named id hlt
          refine ⟨m, ?_⟩
          simp only [Dict.get?_set]
          rw [if_neg, hm]
          rintro rfl
          rw [hn] at hm; cases hm
        · exact ⟨n, by simp [Dict.get?_set]⟩
      · rcases hheap _ _ _ ho' with h1 | ⟨_, rfl⟩
        · exact h.ready id o' h1
        · rfl
      · rcases hheap _ _ _ ho' with h1 | ⟨_, rfl⟩
        · exact h.params id o' h1 j k hj
        · exact hd j k hj
      · rcases hheap _ _ _ ho' with h1 | ⟨rfl, rfl⟩
        · exact h.order pre id post hdr o' h1 j k hj
        · have hmem : s.heap.length ∈ s.draws := by
            change s.draws = _ at hdr
            rw [hdr]; simp
          exact absurd (hi.drawn _ hmem) (lt_irrefl _)

theorem deterministic_netInv (s : State V (Dist V X) L) (n : Name) (t : Tensor V)
    (h : NetInv s) (hd : ∀ id, s.nodes.get? n ≠ some (.stoch id)) :
    NetInv (deterministic s n t).2 := by
  refine ⟨fun id hid => ?_, h.ready, h.params, h.order⟩
  obtain ⟨m, hm⟩ := h.named id hid
  refine ⟨m, ?_⟩
  simp only [deterministic, Dict.get?_set]
  rw [if_neg, hm]
  rintro rfl
  exact hd id hm

theorem step_netInv [AddCommMonoid L] (env : Env V (Dist V X) L) (s : State V (Dist V X) L)
    (op : Op V (Dist V X) L) (ops : List (Op V (Dist V X) L)) (hi : Inv env s) (h : NetInv s)
    (hc : Causal env s (op :: ops)) : NetInv (step env s op).2 := by
  have hi' := (step_inv env s op hi).1
  cases op with
  | stochastic n d => exact stochastic_netInv env s n d hi h hc.1
  | deterministic n t => exact deterministic_netInv s n t h hc.1
  | legacy n d o => exact hc.1.elim
  | setLogJoint f => exact hc.1.elim
  | logJoint => exact h.mono hi' (logJoint_still env s hi)
  | _ => exact h.mono hi' (access_of_query env s _ hi trivial).still

theorem run_netInv [AddCommMonoid L] (env : Env V (Dist V X) L) (ops : List (Op V (Dist V X) L))
    (s : State V (Dist V X) L) (hi : Inv env s) (h : NetInv s) (hc : Causal env s ops) :
    NetInv (run env s ops) := by
  induction ops generalizing s with
  | nil => exact h
  | cons op ops ih =>
    exact ih _ (step_inv env s op hi).1 (step_netInv env s op ops hi h hc) hc.2

theorem init_netInv (lo : Option (Dict Name (Option V))) (m : Option (LogJoint L))
    (ob : Dict Name (Option V)) : NetInv (State.init lo m ob : State V (Dist V X) L) := by
  constructor <;> simp [State.init]

theorem step_metaLJ [AddCommMonoid L] (env : Env V (Dist V X) L) (s : State V (Dist V X) L)
    (op : Op V (Dist V X) L) (ops : List (Op V (Dist V X) L)) (hi : Inv env s)
    (hc : Causal env s (op :: ops)) : (step env s op).2.metaLJ = s.metaLJ := by
  cases op with
  | stochastic n d =>
    simp only [step, stochastic]
    split
    · rfl
    · split <;> rfl
  | deterministic n t => rfl
  | legacy n d o => exact hc.1.elim
  | setLogJoint f => exact hc.1.elim
  | logJoint => exact (logJoint_still env s hi).metaLJ
  | _ => exact (access_of_query env s _ hi trivial).metaLJ

theorem run_metaLJ [AddCommMonoid L] (env : Env V (Dist V X) L) (ops : List (Op V (Dist V X) L))
    (s : State V (Dist V X) L) (hi : Inv env s) (hc : Causal env s ops) :
    (run env s ops).metaLJ = s.metaLJ := by
  induction ops generalizing s with
  | nil => rfl
  | cons op ops ih =>
    exact (ih _ (step_inv env s op hi).1 hc.2).trans (step_metaLJ env s op ops hi hc)

theorem Causal.tame [AddCommMonoid L] (env : Env V (Dist V X) L) (ops : List (Op V (Dist V X) L))
    (s : State V (Dist V X) L) (hc : Causal env s ops) : Tame env s ops := by
  induction ops generalizing s with
  | nil => trivial
  | cons op ops ih =>
    refine ⟨?_, ih _ hc.2⟩
    have h1 := hc.1
    cases op with
    | deterministic n t => exact h1
    | legacy n d o => exact h1.elim
    | setLogJoint f => exact h1.elim
    | _ => trivial

/-! ### Log joint as a product -/

theorem exp_list_sum (ls : List EReal) : ls.sum.exp = (ls.map EReal.exp).prod := by
  induction ls with
  | nil => simp
  | cons a as ih => simp [EReal.exp_add, ih]

theorem sum_apply (ls : List (W → EReal)) (w : W) : ls.sum w = (ls.map (fun l => l w)).sum := by
  induction ls with
  | nil => rfl
  | cons a as ih => simp [ih]

theorem nodeDist_of {s : State V (Dist V X) L} {id : ℕ} {o : Obj V (Dist V X) L}
    (h : s.heap[id]? = some o) : nodeDist s id = o.dist := by simp [nodeDist, h]

theorem nodeValue_of {s : State V (Dist V X) L} {id : ℕ} {t : Tensor V}
    (h : HasValue s id t) : nodeValue s id = t := by
  obtain ⟨o, ho, hv⟩ := h
  simp [nodeValue, ho, hv]

/-- The default log joint is the product of the densities of all the nodes at their values. -/
theorem joint_product (ev : V → W → X) (dr : ℕ → W → X)
    (s : State V (Dist V X) (W → EReal)) (ids : List ℕ)
    (hids : ∀ id, id ∈ ids ↔ id < s.heap.length) (hnd : ids.Nodup) (ls : List (W → EReal))
    (h : List.Forall₂ (CondIs (denv ev dr) s) ids ls) (w : W) :
    (ls.sum w).exp = ∏ id ∈ Finset.range s.heap.length,
      (nodeDist s id).at ev dr (nodeValue s id) w := by
  have hset : Finset.range s.heap.length = ids.toFinset := by
    ext id; simp [hids]
  rw [hset, List.prod_toFinset _ hnd, sum_apply, exp_list_sum, List.map_map]
  clear hset hids hnd
  induction h with
  | nil => rfl
  | cons hx _ ih =>
    rename_i a b l1 l2 _
    simp only [List.map_cons, List.prod_cons, ih]
    congr 1
    obtain ⟨o, t, h1, h2, h3⟩ := hx
    simp only [denv, Option.some.injEq] at h3
    rw [nodeDist_of h1, nodeValue_of ⟨o, h1, h2⟩, ← h3]
    simp

/-! ### Ancestral sampling -/

section
variable [MeasurableSpace X]

theorem lmarginal_mul_const (μ : ℕ → Measure X) (s : Finset ℕ) (g F : (ℕ → X) → ℝ≥0∞)
    (hF : Measurable F) (w : ℕ → X) (hg : ∀ y, g (Function.updateFinset w s y) = g w) :
    (∫⋯∫⁻_s, (fun v => g v * F v) ∂μ) w = g w * (∫⋯∫⁻_s, F ∂μ) w := by
  unfold lmarginal
  simp only [hg]
  exact lintegral_const_mul (g w) (hF.comp measurable_updateFinset)

/-- Integrating one coordinate after the other, each with its conditional density, is integrating the
product. -/
theorem sampleE_eq (μ : ℕ → Measure X) [∀ i, SigmaFinite (μ i)] (dist : ℕ → Dist X X)
    (hm : ∀ i, Measurable (fun p : (ℕ → X) × X =>
      (dist i).dens ((dist i).params.map (eval constEv drawOf p.1)) p.2))
    (l : List ℕ) (hnd : l.Nodup)
    (hord : ∀ pre i post, l = pre ++ i :: post → ∀ j k, Tensor.draw j k ∈ (dist i).params →
      j ∉ i :: post)
    (f : (ℕ → X) → ℝ≥0∞) (hf : Measurable f) (w : ℕ → X) :
    sampleE μ dist l f w = (∫⋯∫⁻_l.toFinset, (fun v => f v * ∏ i ∈ l.toFinset,
      (dist i).dens ((dist i).params.map (eval constEv drawOf v)) (v i)) ∂μ) w := by
  have hg : ∀ i, Measurable (fun v : ℕ → X =>
      (dist i).dens ((dist i).params.map (eval constEv drawOf v)) (v i)) := fun i =>
    (hm i).comp (measurable_id.prodMk (measurable_pi_apply i))
  induction l generalizing w with
  | nil => simp [sampleE]
  | cons i rest ih =>
    have hi : i ∉ rest := (List.nodup_cons.1 hnd).1
    have hi' : i ∉ rest.toFinset := by simpa using hi
    have hpar : ∀ j k, Tensor.draw j k ∈ (dist i).params → j ∉ i :: rest := hord [] i rest rfl
    have ih' := ih (List.nodup_cons.1 hnd).2 (fun pre a post he => hord (i :: pre) a post (by simp [he]))
    have hmeas : Measurable (fun v : ℕ → X => f v * ∏ j ∈ rest.toFinset,
        (dist j).dens ((dist j).params.map (eval constEv drawOf v)) (v j)) :=
      hf.mul (Finset.measurable_prod _ (fun j _ => hg j))
    have hmeas' : Measurable (fun v : ℕ → X => f v * ∏ j ∈ (i :: rest).toFinset,
        (dist j).dens ((dist j).params.map (eval constEv drawOf v)) (v j)) :=
      hf.mul (Finset.measurable_prod _ (fun j _ => hg j))
    -- parameters of `i` do not see coordinates that are drawn later
    have hev : ∀ (v v' : ℕ → X), (∀ j, j ∉ i :: rest → v j = v' j) →
        (dist i).params.map (eval constEv drawOf v) =
          (dist i).params.map (eval constEv drawOf v') := by
      intro v v' hv
      refine List.map_congr_left (fun t ht => ?_)
      cases t with
      | ext x => rfl
      | draw j k => exact hv j (hpar j k ht)
    rw [List.toFinset_cons] at hmeas' ⊢
    rw [lmarginal_insert _ hmeas' hi']
    simp only [sampleE]
    refine lintegral_congr (fun x => ?_)
    rw [ih']
    have hsplit : (fun v : ℕ → X => f v * ∏ j ∈ insert i rest.toFinset,
        (dist j).dens ((dist j).params.map (eval constEv drawOf v)) (v j)) =
        fun v => (dist i).dens ((dist i).params.map (eval constEv drawOf v)) (v i) *
          (f v * ∏ j ∈ rest.toFinset,
            (dist j).dens ((dist j).params.map (eval constEv drawOf v)) (v j)) := by
      funext v
      rw [Finset.prod_insert hi']
      ring
    rw [hsplit, lmarginal_mul_const μ rest.toFinset _ _ hmeas]
    · congr 2
      · refine hev _ _ (fun j hj => ?_)
        rw [Function.update_of_ne]
        rintro rfl
        exact hj (by simp)
      · simp
    · intro y
      congr 1
      · refine hev _ _ (fun j hj => ?_)
        rw [Function.updateFinset]
        rw [dif_neg]
        intro hmem
        exact hj (List.mem_cons_of_mem _ (by simpa using hmem))
      · rw [Function.updateFinset, dif_neg hi']

end

/-! ### Programs -/

theorem causal_append [AddCommMonoid L] (env : Env V (Dist V X) L) (a b : List (Op V (Dist V X) L))
    (s : State V (Dist V X) L) :
    Causal env s (a ++ b) ↔ Causal env s a ∧ Causal env (run env s a) b := by
  induction a generalizing s with
  | nil => simp [Causal, run]
  | cons op a ih =>
    simp only [List.cons_append, Causal, ih]
    rw [and_assoc]
    rfl

/-- What holds after the statements `done` of a program have been run. -/
structure BuildInv [AddCommMonoid L] (env : Env V (Dist V X) L)
    (lo : Option (Dict Name (Option V))) (m : Option (LogJoint L)) (done : List (Decl X))
    (s : State V (Dist V X) L) : Prop where
  hist : ∃ ops, s = run env (State.init lo m []) ops ∧ Causal env (State.init lo m []) ops
  len : s.heap.length = done.length
  obj : ∀ (i : ℕ) (d : Decl X), done[i]? = some d → ∃ o, s.heap[i]? = some o ∧
    o.dist.dens = d.dens ∧ o.ready = true ∧ o.observation = obsOf lo d.name ∧
    List.Forall₂ (HasValue s) d.parents o.dist.params
  fresh : ∀ n, n ∉ done.map Decl.name → s.nodes.get? n = none
  named : ∀ (i : ℕ) (d : Decl X), done[i]? = some d → s.nodes.get? d.name = some (.stoch i)
  cache : s.cache = none

theorem BuildInv.inv [AddCommMonoid L] {env : Env V (Dist V X) L}
    {lo : Option (Dict Name (Option V))} {m : Option (LogJoint L)} {done : List (Decl X)}
    {s : State V (Dist V X) L} (h : BuildInv env lo m done s) : Inv env s := by
  obtain ⟨ops, rfl, _⟩ := h.hist
  exact (run_inv env ops _ (init_inv env lo m [])).1

theorem BuildInv.localObs [AddCommMonoid L] {env : Env V (Dist V X) L}
    {lo : Option (Dict Name (Option V))} {m : Option (LogJoint L)} {done : List (Decl X)}
    {s : State V (Dist V X) L} (h : BuildInv env lo m done s) :
    s.localObs = lo ∧ s.observed = [] := by
  obtain ⟨ops, rfl, _⟩ := h.hist
  have := (run_inv env ops _ (init_inv env lo m [])).2
  exact ⟨this.localObs, this.observed⟩

theorem BuildInv.init [AddCommMonoid L] (env : Env V (Dist V X) L)
    (lo : Option (Dict Name (Option V))) (m : Option (LogJoint L)) :
    BuildInv env lo m [] (State.init lo m []) :=
  ⟨⟨[], rfl, trivial⟩, rfl, by simp, by simp [State.init, Dict.get?], by simp, rfl⟩

theorem objTensor_ok {D : Type} (env : Env V D L) (hs : ∀ d, env.canSample d = true)
    (s : State V D L) (id : ℕ) (o : Obj V D L) (ho : s.heap[id]? = some o) (hr : o.ready = true) :
    ∃ t, (objTensor env s id).1 = .ok t := by
  unfold objTensor
  simp only [ho, hr, Bool.true_eq_false, if_false]
  cases o.observation with
  | some v => exact ⟨_, rfl⟩
  | none =>
    cases o.samples with
    | some t => exact ⟨_, rfl⟩
    | none => simp [hs]

theorem BuildInv.tensor [AddCommMonoid L] {env : Env V (Dist V X) L}
    (hs : ∀ d, env.canSample d = true)
    {lo : Option (Dict Name (Option V))} {m : Option (LogJoint L)} {done : List (Decl X)}
    {s : State V (Dist V X) L} (h : BuildInv env lo m done s) (p : ℕ) (hp : p < done.length) :
    ∃ t, (objTensor env s p).1 = .ok t ∧ BuildInv env lo m done (objTensor env s p).2 ∧
      HasValue (objTensor env s p).2 p t ∧ Access s (objTensor env s p).2 := by
  obtain ⟨o, ho, h2, h3, h4, h5⟩ := h.obj p _ (List.getElem?_eq_getElem hp)
  obtain ⟨t, ht⟩ := objTensor_ok env hs s p o ho h3
  obtain ⟨g1, g2, g3⟩ := objTensor_spec env s p h.inv
  refine ⟨t, ht, ⟨?_, ?_, ?_, ?_, ?_, ?_⟩, g3 t ht, g2⟩
  · obtain ⟨ops, he, hc⟩ := h.hist
    refine ⟨ops ++ [.tensor p], ?_, ?_⟩
    · rw [run_append, ← he]
      simp only [run, List.foldl, step]
      rcases hq : objTensor env s p with ⟨a, s1⟩
      cases a <;> rfl
    · rw [causal_append]
      exact ⟨hc, trivial, trivial⟩
  · rw [g2.len_eq]; exact h.len
  · intro i d hd
    obtain ⟨o, ho, h2, h3, h4, h5⟩ := h.obj i d hd
    obtain ⟨o', ho', hle⟩ := g2.obj i o ho
    refine ⟨o', ho', by rw [hle.dist]; exact h2, by rw [hle.ready]; exact h3,
      by rw [hle.observation]; exact h4, ?_⟩
    rw [hle.dist]
    exact h5.imp (fun _ _ hv => hv.mono g2.toGrow)
  · intro n hn; rw [g2.nodes]; exact h.fresh n hn
  · intro i d hd; rw [g2.nodes]; exact h.named i d hd
  · rw [g2.cache]; exact h.cache

theorem BuildInv.tensors [AddCommMonoid L] {env : Env V (Dist V X) L}
    (hs : ∀ d, env.canSample d = true)
    {lo : Option (Dict Name (Option V))} {m : Option (LogJoint L)} {done : List (Decl X)}
    (ps : List ℕ) (hp : ∀ p ∈ ps, p < done.length)
    {s : State V (Dist V X) L} (h : BuildInv env lo m done s) :
    ∃ ts, (comprehension (objTensor env) s ps).1 = .ok ts ∧
      BuildInv env lo m done (comprehension (objTensor env) s ps).2 ∧
      List.Forall₂ (HasValue (comprehension (objTensor env) s ps).2) ps ts ∧
      Access s (comprehension (objTensor env) s ps).2 := by
  induction ps generalizing s with
  | nil => exact ⟨[], rfl, h, List.Forall₂.nil, Access.refl s⟩
  | cons p ps ih =>
    obtain ⟨t, g1, g2, g3, g4⟩ := h.tensor hs p (hp p (by simp))
    obtain ⟨ts, k1, k2, k3, k4⟩ := ih (fun q hq => hp q (List.mem_cons_of_mem _ hq)) g2
    simp only [comprehension]
    rcases hq : objTensor env s p with ⟨a, s1⟩
    rw [hq] at g1 g2 g3 g4 k1 k2 k3 k4
    simp only at g1
    subst g1
    simp only at k1 k2 k3 k4 g3 ⊢
    rcases hq2 : comprehension (objTensor env) s1 ps with ⟨a, s2⟩
    rw [hq2] at k1 k2 k3 k4
    simp only at k1
    subst k1
    exact ⟨t :: ts, rfl, k2, List.Forall₂.cons (g3.mono k4.toGrow) k3, g4.trans k4⟩

theorem BuildInv.declare [AddCommMonoid L] {env : Env V (Dist V X) L}
    (hs : ∀ d, env.canSample d = true) (hob : ∀ d v, env.checkObs d v = some v)
    {lo : Option (Dict Name (Option V))} {m : Option (LogJoint L)} {done : List (Decl X)}
    (d : Decl X) (hp : ∀ p ∈ d.parents, p < done.length) (hn : d.name ∉ done.map Decl.name)
    {s : State V (Dist V X) L} (h : BuildInv env lo m done s) :
    (ZhuSuan.BN.declare env s d).1 = .ok () ∧
      BuildInv env lo m (done ++ [d]) (ZhuSuan.BN.declare env s d).2 := by
  obtain ⟨ts, g1, g2, g3, g4⟩ := h.tensors hs d.parents hp
  unfold ZhuSuan.BN.declare
  rcases hq : comprehension (objTensor env) s d.parents with ⟨a, s1⟩
  rw [hq] at g1 g2 g3 g4
  simp only at g1
  subst g1
  simp only at g2 g3 g4 ⊢
  have hlo := g2.localObs
  have hget : getObservation s1 d.name = obsOf lo d.name := by
    unfold getObservation obsOf
    rw [hlo.1]
    cases lo with
    | none => rfl
    | some dd =>
      simp only [Option.bind_some]
      cases dd.get? d.name with
      | none => rfl
      | some v => rfl
  have hres : resolveObs env s1.observed d.name ⟨ts, d.dens⟩ (obsOf lo d.name) =
      .ok (obsOf lo d.name) := by
    unfold resolveObs
    cases obsOf lo d.name with
    | some v => simp [hob]
    | none => rw [hlo.2]; simp [Dict.get?]
  have hst : stochastic env s1 d.name ⟨ts, d.dens⟩ =
      (.ok (.node (.stoch s1.heap.length)),
       { s1 with cache := none
                 heap := s1.heap ++ [{ name := d.name, dist := ⟨ts, d.dens⟩, ready := true,
                                       observation := obsOf lo d.name,
                                       samples := none, condLogP := none }]
                 nodes := s1.nodes.set d.name (.stoch s1.heap.length) }) := by
    unfold stochastic
    rw [g2.fresh d.name hn]
    have hc : getObservation { s1 with cache := none } d.name = getObservation s1 d.name := rfl
    simp only [hc, hget, hres]
  rw [hst]
  refine ⟨rfl, ?_⟩
  have hgrow : Grow s1 (stochastic env s1 d.name ⟨ts, d.dens⟩).2 :=
    (step_inv env s1 (.stochastic d.name ⟨ts, d.dens⟩) g2.inv).2
  have hinv1 := g2.inv
  rw [hst] at hgrow
  simp only at hgrow ⊢
  refine ⟨?_, ?_, ?_, ?_, ?_, rfl⟩
  · obtain ⟨ops, he, hc⟩ := g2.hist
    refine ⟨ops ++ [.stochastic d.name ⟨ts, d.dens⟩], ?_, ?_⟩
    · rw [run_append, ← he]
      simp only [run, List.foldl, step, hst]
    · rw [causal_append, ← he]
      refine ⟨hc, ?_, trivial⟩
      intro j k hj
      simp only at hj
      -- a parameter that is a draw is the value of a parent that has drawn it
      have hx : ∀ (ps : List ℕ) (us : List (Tensor V)), List.Forall₂ (HasValue s1) ps us →
          Tensor.draw j k ∈ us → ∃ p, HasValue s1 p (.draw j k) := by
        intro ps us hF
        induction hF with
        | nil => simp
        | cons hx _ ih =>
          intro hmem
          rcases List.mem_cons.1 hmem with h1 | h1
          · exact ⟨_, h1 ▸ hx⟩
          · exact ih h1
      obtain ⟨p, o, ho, hv⟩ := hx _ _ g3 hj
      have hinv := hinv1.objs p o ho
      unfold Obj.value at hv
      split at hv
      · cases hoo : o.observation with
        | some v => simp [hoo] at hv
        | none =>
          simp only [hoo, Option.map_none, Option.none_or] at hv
          obtain ⟨_, _, k', h4, h5, _⟩ := hinv.sampled _ hv
          cases h4
          exact List.mem_of_getElem? h5
      · cases hv
  · simp [g2.len]
  · intro i e he
    rcases lt_trichotomy i done.length with hlt | heq | hgt
    · rw [List.getElem?_append_left hlt] at he
      obtain ⟨o, ho, h2, h3, h4, h5⟩ := g2.obj i e he
      obtain ⟨o', ho', hle⟩ := hgrow.obj i o ho
      refine ⟨o', ho', by rw [hle.dist]; exact h2, by rw [hle.ready]; exact h3,
        by rw [hle.observation]; exact h4, ?_⟩
      rw [hle.dist]
      exact h5.imp (fun _ _ hv => hv.mono hgrow)
    · subst heq
      simp at he
      subst he
      rw [← g2.len, List.getElem?_concat_length]
      refine ⟨_, rfl, rfl, rfl, rfl, ?_⟩
      exact g3.imp (fun _ _ hv => hv.mono hgrow)
    · rw [List.getElem?_eq_none (by simp; omega)] at he
      cases he
  · intro n hnn
    simp only [List.map_append, List.map_cons, List.map_nil, List.mem_append, List.mem_singleton,
      not_or] at hnn
    rw [Dict.get?_set, if_neg (fun hh => hnn.2 hh.symm)]
    exact g2.fresh n hnn.1
  · intro i e he
    rcases lt_trichotomy i done.length with hlt | heq | hgt
    · rw [List.getElem?_append_left hlt] at he
      rw [Dict.get?_set, if_neg]
      · exact g2.named i e he
      · intro hh
        exact hn (List.mem_map.2 ⟨e, List.mem_of_getElem? he, hh.symm⟩)
    · subst heq
      simp at he
      subst he
      rw [Dict.get?_set, if_pos rfl, g2.len]
    · rw [List.getElem?_eq_none (by simp; omega)] at he
      cases he

theorem BuildInv.build [AddCommMonoid L] {env : Env V (Dist V X) L}
    (hs : ∀ d, env.canSample d = true) (hob : ∀ d v, env.checkObs d v = some v)
    {lo : Option (Dict Name (Option V))} {m : Option (LogJoint L)} (done todo : List (Decl X))
    (hwf : WellFormed (done ++ todo))
    {s : State V (Dist V X) L} (h : BuildInv env lo m done s) :
    (ZhuSuan.BN.build env s todo).1 = .ok () ∧
      BuildInv env lo m (done ++ todo) (ZhuSuan.BN.build env s todo).2 := by
  induction todo generalizing done s with
  | nil => exact ⟨rfl, by rw [List.append_nil]; exact h⟩
  | cons d todo ih =>
    obtain ⟨g1, g2⟩ := h.declare hs hob d
      (fun p hp => hwf.2 done.length d (by simp) p hp) (by
        have := hwf.1
        rw [List.map_append, List.map_cons] at this
        intro hmem
        exact List.disjoint_of_nodup_append this hmem (by simp))
    simp only [ZhuSuan.BN.build]
    rcases hq : ZhuSuan.BN.declare env s d with ⟨a, s1⟩
    rw [hq] at g1 g2
    simp only at g1 g2
    subst g1
    have := ih (done ++ [d]) (by simpa using hwf) g2
    simpa using this

/-! ### The log joint of a finished program exists -/

theorem objCondLogP_ok {D : Type} (env : Env V D L) (hs : ∀ d, env.canSample d = true)
    (hl : ∀ d t, (env.logProb d t).isSome)
    (s : State V D L) (id : ℕ) (o : Obj V D L) (ho : s.heap[id]? = some o) (hr : o.ready = true) :
    ∃ l, (objCondLogP env s id).1 = .ok l := by
  unfold objCondLogP
  simp only [ho]
  cases o.condLogP with
  | some l => exact ⟨l, rfl⟩
  | none =>
    obtain ⟨t, ht⟩ := objTensor_ok env hs s id o ho hr
    rcases hq : objTensor env s id with ⟨a, s1⟩
    rw [hq] at ht
    simp only at ht
    subst ht
    simp only
    obtain ⟨x, hx⟩ := Option.isSome_iff_exists.1 (hl o.dist t)
    rw [hx]
    exact ⟨x, rfl⟩

theorem comprehension_condLogP_ok {D : Type} (env : Env V D L) (hs : ∀ d, env.canSample d = true)
    (hl : ∀ d t, (env.logProb d t).isSome) (ids : List ℕ) (s : State V D L) (hi : Inv env s)
    (h : ∀ id ∈ ids, ∃ o : Obj V D L, s.heap[id]? = some o ∧ o.ready = true) :
    ∃ ls, (comprehension (objCondLogP env) s ids).1 = .ok ls := by
  induction ids generalizing s with
  | nil => exact ⟨[], rfl⟩
  | cons id ids ih =>
    obtain ⟨o, ho, hr⟩ := h id (by simp)
    obtain ⟨l, hl'⟩ := objCondLogP_ok env hs hl s id o ho hr
    obtain ⟨g1, g2, _⟩ := objCondLogP_spec env s id hi
    simp only [comprehension]
    rcases hq : objCondLogP env s id with ⟨a, s1⟩
    rw [hq] at hl' g1 g2
    simp only at hl'
    subst hl'
    simp only at g1 g2 ⊢
    obtain ⟨ls, hls⟩ := ih s1 g1 (fun j hj => by
      obtain ⟨o, ho, hr⟩ := h j (List.mem_cons_of_mem _ hj)
      obtain ⟨o', ho', hle⟩ := g2.obj j o ho
      exact ⟨o', ho', by rw [hle.ready]; exact hr⟩)
    rcases hq2 : comprehension (objCondLogP env) s1 ids with ⟨a, s2⟩
    rw [hq2] at hls
    simp only at hls
    subst hls
    exact ⟨_, rfl⟩

theorem BuildInv.logJoint_ok [AddCommMonoid L] {env : Env V (Dist V X) L}
    (hs : ∀ d, env.canSample d = true) (hl : ∀ d t, (env.logProb d t).isSome)
    {lo : Option (Dict Name (Option V))} {m : Option (LogJoint L)}
    (hm : m = none ∨ m = some .unset) {done : List (Decl X)}
    {s : State V (Dist V X) L} (h : BuildInv env lo m done s) :
    ∃ l, logJoint env s = (.ok l, (logJoint env s).2) := by
  have hmeta : s.metaLJ = m := by
    obtain ⟨ops, rfl, hc⟩ := h.hist
    exact run_metaLJ env ops _ (init_inv env lo m []) hc
  obtain ⟨ls, hls⟩ := comprehension_condLogP_ok env hs hl (stochIds s.nodes) s h.inv (by
    intro id hid
    have hid' : ∃ n, (n, Ref.stoch id) ∈ s.nodes := by
      simp only [stochIds, List.mem_filterMap] at hid
      obtain ⟨⟨n, r⟩, h1, h2⟩ := hid
      cases r with
      | det t => simp at h2
      | stoch i => simp at h2; subst h2; exact ⟨n, h1⟩
    obtain ⟨n, hn⟩ := hid'
    have hlt := h.inv.refs n id ((Dict.get?_eq_some_iff h.inv.wf).2 hn)
    rw [h.len] at hlt
    obtain ⟨o, h1, _, h3, _⟩ := h.obj id _ (List.getElem?_eq_getElem hlt)
    exact ⟨o, h1, h3⟩)
  unfold logJoint
  rw [h.cache]
  simp only
  unfold logJointFresh
  rw [hmeta]
  rcases hq : comprehension (objCondLogP env) s (stochIds s.nodes) with ⟨a, s1⟩
  rw [hq] at hls
  simp only at hls
  subst hls
  rcases hm with rfl | rfl <;> exact ⟨_, rfl⟩

end ZhuSuan.BN
