import Verif.Lemmas.Program

/-!
# C69: a net defines a probability distribution, its samples follow it, and its log joint is its density
-/

set_option autoImplicit false

namespace ZhuSuan.BN
open scoped ENNReal
open MeasureTheory

variable {V W X : Type}

section
variable (ev : V → W → X) (dr : ℕ → W → X) (lo : Option (Dict Name (Option V)))
  (m : Option (LogJoint (W → EReal))) (ob : Dict Name (Option V))
  (ops : List (Op V (Dist V X) (W → EReal)))

/-- The state after the history and a final `log_joint()`. -/
noncomputable abbrev final : State V (Dist V X) (W → EReal) :=
  (step (denv ev dr) (hist (denv ev dr) lo m ob ops) .logJoint).2

/-- Facts about the state after a successful final `log_joint()`. -/
theorem final_facts (hm : m = none ∨ m = some .unset)
    (hc : Causal (denv ev dr) (State.init lo m ob) ops) (l : W → EReal)
    (h : (step (denv ev dr) (hist (denv ev dr) lo m ob ops) .logJoint).1 = .ok (.val l)) :
    Inv (denv ev dr) (final ev dr lo m ob ops) ∧ NetInv (final ev dr lo m ob ops) ∧
    (∀ id, id < (final ev dr lo m ob ops).heap.length →
      HasValue (final ev dr lo m ob ops) id (nodeValue (final ev dr lo m ob ops) id)) ∧
    ∀ w, (l w).exp = ∏ id ∈ Finset.range (final ev dr lo m ob ops).heap.length,
      (nodeDist (final ev dr lo m ob ops) id).at ev dr
        (nodeValue (final ev dr lo m ob ops) id) w := by
  have hi := hist_inv (denv ev dr) lo m ob ops
  have hs := logJoint_still (denv ev dr) _ hi
  have hi' := (step_inv (denv ev dr) _ .logJoint hi).1
  have hn' : NetInv (final ev dr lo m ob ops) :=
    (run_netInv (denv ev dr) ops _ (init_inv _ lo m ob) (init_netInv lo m ob) hc).mono hi' hs
  have hJ := C09_log_joint_current_partial (denv ev dr) lo m ob ops
    (hc.tame (denv ev dr) ops _) l h
  have hmeta : (final ev dr lo m ob ops).metaLJ = m := by
    rw [hs.metaLJ]
    exact run_metaLJ (denv ev dr) ops _ (init_inv _ lo m ob) hc
  have hids := C09_sum_ranges_over_nodes (denv ev dr) lo m ob ops
  rw [← hs.nodes] at hids
  obtain ⟨ls, hF, hl⟩ : ∃ ls, List.Forall₂ (CondIs (denv ev dr) (final ev dr lo m ob ops))
      (stochIds (final ev dr lo m ob ops).nodes) ls ∧ l = ls.sum := by
    unfold JointIs at hJ
    change match (final ev dr lo m ob ops).metaLJ with
      | _ => _ at hJ
    rw [hmeta] at hJ
    rcases hm with rfl | rfl <;> exact hJ
  have hmem : ∀ id, id ∈ stochIds (final ev dr lo m ob ops).nodes ↔
      id < (final ev dr lo m ob ops).heap.length := by
    intro id
    rw [hids.1 id]
    constructor
    · rintro ⟨n, hn⟩; exact hi'.refs n id hn
    · exact hn'.named id
  refine ⟨hi', hn', ?_, fun w => ?_⟩
  · intro id hid
    have hmem' := (hmem id).2 hid
    obtain ⟨k, hk, rfl⟩ := List.getElem_of_mem hmem'
    have hk2 : k < ls.length := by rw [← hF.length_eq]; exact hk
    obtain ⟨o, t, h1, h2, _⟩ := hF.get hk hk2
    have hv : HasValue (final ev dr lo m ob ops)
      (stochIds (final ev dr lo m ob ops).nodes)[k] t := ⟨o, h1, h2⟩
    rw [nodeValue_of hv]; exact hv
  · rw [hl]
    exact joint_product ev dr _ _ hmem hids.2 ls hF w

/-- **C69.** After any causal history, `exp` of what `log_joint()` returns is the product, over all stochastic
nodes, of the density of the node at its current value. -/
theorem C69_log_joint_product (hm : m = none ∨ m = some .unset)
    (hc : Causal (denv ev dr) (State.init lo m ob) ops) (l : W → EReal)
    (h : (step (denv ev dr) (hist (denv ev dr) lo m ob ops) .logJoint).1 = .ok (.val l)) (w : W) :
    (∀ id, id < (final ev dr lo m ob ops).heap.length →
      HasValue (final ev dr lo m ob ops) id (nodeValue (final ev dr lo m ob ops) id)) ∧
    (l w).exp = ∏ id ∈ Finset.range (final ev dr lo m ob ops).heap.length,
      (nodeDist (final ev dr lo m ob ops) id).at ev dr
        (nodeValue (final ev dr lo m ob ops) id) w :=
  let ⟨_, _, h3, h4⟩ := final_facts ev dr lo m ob ops hm hc l h
  ⟨h3, h4 w⟩

end

section
variable [MeasurableSpace X] (μ : ℕ → Measure X) [∀ i, SigmaFinite (μ i)]
  (lo : Option (Dict Name (Option X))) (m : Option (LogJoint ((ℕ → X) → EReal)))
  (ob : Dict Name (Option X)) (ops : List (Op X (Dist X X) ((ℕ → X) → EReal)))

/-- The run-time state, external values being constants and the draw of object `i` being `w i`. -/
noncomputable abbrev fin : State X (Dist X X) ((ℕ → X) → EReal) :=
  final constEv drawOf lo m ob ops

omit [MeasurableSpace X] in
/-- The objects that have drawn in a state in which every node has its value. -/
theorem draws_of_state {V W : Type} {env : Env V (Dist V X) (W → EReal)}
    {S : State V (Dist V X) (W → EReal)} (hi : Inv env S) (hn : NetInv S)
    (hv : ∀ id, id < S.heap.length → HasValue S id (nodeValue S id)) :
    S.draws.Nodup ∧ ∀ id, id ∈ S.draws ↔ id < S.heap.length ∧ isObs S id = false := by
  constructor
  · rw [List.nodup_iff_count_le_one]
    intro a
    by_cases ha : a ∈ S.draws
    · have hlt := hi.drawn a ha
      have hinv := hi.objs a _ (List.getElem?_eq_getElem hlt)
      cases hs : (S.heap[a]).samples with
      | none => exact absurd ha (hinv.unsampled hs)
      | some t =>
        obtain ⟨_, _, k, _, _, h5⟩ := hinv.sampled t hs
        exact h5.le
    · rw [List.count_eq_zero_of_not_mem ha]; exact Nat.zero_le _
  · intro id
    constructor
    · intro ha
      have hlt := hi.drawn id ha
      refine ⟨hlt, ?_⟩
      have hinv := hi.objs id _ (List.getElem?_eq_getElem hlt)
      simp only [isObs, List.getElem?_eq_getElem hlt]
      cases hs : (S.heap[id]).samples with
      | none => exact absurd ha (hinv.unsampled hs)
      | some t =>
        obtain ⟨_, h2, _⟩ := hinv.sampled t hs
        rw [h2]; rfl
    · rintro ⟨hlt, ho⟩
      by_contra hnd
      obtain ⟨o, h1, h2⟩ := hv id hlt
      have hinv := hi.objs id o h1
      simp only [isObs, h1] at ho
      have hon : o.observation = none := by simpa using ho
      simp only [Obj.value, hn.ready id o h1, if_true, hon] at h2
      simp only [Option.map_none, Option.none_or] at h2
      obtain ⟨_, _, k, _, h5, _⟩ := hinv.sampled _ h2
      exact hnd (List.mem_of_getElem? h5)

/-- Sampling in a state in which every node has its value. -/
theorem sampling_of_state {S : State X (Dist X X) ((ℕ → X) → EReal)}
    (hi : Inv (denv constEv drawOf) S) (hn : NetInv S)
    (hv : ∀ id, id < S.heap.length → HasValue S id (nodeValue S id))
    (hmeas : ∀ i, Measurable (fun p : (ℕ → X) × X => (nodeDist S i).dens
      ((nodeDist S i).params.map (eval constEv drawOf p.1)) p.2))
    (f : (ℕ → X) → ℝ≥0∞) (hf : Measurable f) (w : ℕ → X) :
    sampleE μ (nodeDist S) S.draws
      (fun v => f v * ∏ id ∈ (Finset.range S.heap.length).filter (fun id => isObs S id = true),
        (nodeDist S id).at constEv drawOf (nodeValue S id) v) w =
    (∫⋯∫⁻_S.draws.toFinset, (fun v => f v * ∏ id ∈ Finset.range S.heap.length,
        (nodeDist S id).at constEv drawOf (nodeValue S id) v) ∂μ) w := by
  obtain ⟨hnd, hdr⟩ := draws_of_state hi hn hv
  have hset : (Finset.range S.heap.length).filter
      (fun id => ¬ isObs S id = true) = S.draws.toFinset := by
    ext id
    simp [hdr]
  have hmAt : ∀ id t, Measurable (fun v => (nodeDist S id).at constEv drawOf t v) := by
    intro id t
    cases t with
    | ext x => exact (hmeas id).comp (measurable_id.prodMk measurable_const)
    | draw j k => exact (hmeas id).comp (measurable_id.prodMk (measurable_pi_apply j))
  rw [sampleE_eq μ _ hmeas _ hnd]
  · congr 1
    funext v
    rw [mul_assoc, ← Finset.prod_filter_mul_prod_filter_not
      (Finset.range S.heap.length) (fun id => isObs S id = true), hset]
    congr 2
    refine Finset.prod_congr rfl (fun i hmi => ?_)
    rw [List.mem_toFinset] at hmi
    obtain ⟨hlt, ho⟩ := (hdr i).1 hmi
    obtain ⟨o, h1, h2⟩ := hv i hlt
    simp only [isObs, h1] at ho
    have hon : o.observation = none := by simpa using ho
    simp only [Obj.value, hn.ready i o h1, if_true, hon, Option.map_none, Option.none_or] at h2
    obtain ⟨_, _, k, h4, _⟩ := (hi.objs i o h1).sampled _ h2
    rw [h4]
    rfl
  · intro pre i post he j k hj hmem
    have hlt : i < S.heap.length := hi.drawn i (by rw [he]; simp)
    have h1 := List.getElem?_eq_getElem hlt
    rw [nodeDist_of h1] at hj
    have hpre := hn.order pre i post he _ h1 j k hj
    rw [he] at hnd
    exact List.disjoint_of_nodup_append hnd hpre hmem
  · exact hf.mul (Finset.measurable_prod _ (fun id _ => hmAt id _))

/-- **C69.** The nodes that draw are exactly the unobserved ones, once each. -/
theorem C69_draws (hm : m = none ∨ m = some .unset)
    (hc : Causal (denv constEv drawOf) (State.init lo m ob) ops) (l : (ℕ → X) → EReal)
    (h : (step (denv constEv drawOf) (hist (denv constEv drawOf) lo m ob ops) .logJoint).1 =
      .ok (.val l)) :
    (fin lo m ob ops).draws.Nodup ∧ ∀ id, id ∈ (fin lo m ob ops).draws ↔
      id < (fin lo m ob ops).heap.length ∧ isObs (fin lo m ob ops) id = false :=
  let ⟨hi, hn, hv, _⟩ := final_facts constEv drawOf lo m ob ops hm hc l h
  draws_of_state hi hn hv

/-- **C69.** Sampling a net, in whatever order the nodes came to draw their samples, and weighting with the
densities of the observed nodes, is integrating against `exp(log_joint())`. -/
theorem C69_sampling (hm : m = none ∨ m = some .unset)
    (hc : Causal (denv constEv drawOf) (State.init lo m ob) ops) (l : (ℕ → X) → EReal)
    (h : (step (denv constEv drawOf) (hist (denv constEv drawOf) lo m ob ops) .logJoint).1 =
      .ok (.val l))
    (hmeas : ∀ i, Measurable (fun p : (ℕ → X) × X => (nodeDist (fin lo m ob ops) i).dens
      ((nodeDist (fin lo m ob ops) i).params.map (eval constEv drawOf p.1)) p.2))
    (f : (ℕ → X) → ℝ≥0∞) (hf : Measurable f) (w : ℕ → X) :
    sampleE μ (nodeDist (fin lo m ob ops)) (fin lo m ob ops).draws
      (fun v => f v * ∏ id ∈ (Finset.range (fin lo m ob ops).heap.length).filter
        (fun id => isObs (fin lo m ob ops) id = true),
        (nodeDist (fin lo m ob ops) id).at constEv drawOf (nodeValue (fin lo m ob ops) id) v) w =
    (∫⋯∫⁻_(fin lo m ob ops).draws.toFinset, (fun v => f v * (l v).exp) ∂μ) w := by
  obtain ⟨hi, hn, hv, hl⟩ := final_facts constEv drawOf lo m ob ops hm hc l h
  rw [sampling_of_state μ hi hn hv hmeas f hf w]
  simp only [hl]

/-- **C69.** Without observations the samples of the net have the density `exp(log_joint())`. -/
theorem C69_law (hm : m = none ∨ m = some .unset)
    (hc : Causal (denv constEv drawOf) (State.init lo m ob) ops) (l : (ℕ → X) → EReal)
    (h : (step (denv constEv drawOf) (hist (denv constEv drawOf) lo m ob ops) .logJoint).1 =
      .ok (.val l))
    (hobs : ∀ id, isObs (fin lo m ob ops) id = false)
    (hmeas : ∀ i, Measurable (fun p : (ℕ → X) × X => (nodeDist (fin lo m ob ops) i).dens
      ((nodeDist (fin lo m ob ops) i).params.map (eval constEv drawOf p.1)) p.2))
    (f : (ℕ → X) → ℝ≥0∞) (hf : Measurable f) (w : ℕ → X) :
    sampleE μ (nodeDist (fin lo m ob ops)) (fin lo m ob ops).draws f w =
    (∫⋯∫⁻_(Finset.range (fin lo m ob ops).heap.length), (fun v => f v * (l v).exp) ∂μ) w := by
  have h1 := C69_sampling μ lo m ob ops hm hc l h hmeas f hf w
  have hdr := (C69_draws lo m ob ops hm hc l h).2
  have hset : (fin lo m ob ops).draws.toFinset = Finset.range (fin lo m ob ops).heap.length := by
    ext id; simp [hdr, hobs]
  rw [hset] at h1
  simpa [hobs] using h1

omit [∀ i, SigmaFinite (μ i)] in
/-- If every distribution is normalised, ancestral sampling loses no mass. -/
theorem sampleE_one (dist : ℕ → Dist X X) (l : List ℕ)
    (hone : ∀ i ∈ l, ∀ v : ℕ → X,
      ∫⁻ x, (dist i).dens ((dist i).params.map (eval constEv drawOf v)) x ∂(μ i) = 1) (w : ℕ → X) :
    sampleE μ dist l (fun _ => 1) w = 1 := by
  induction l generalizing w with
  | nil => rfl
  | cons i rest ih =>
    simp only [sampleE]
    simp only [ih (fun j hj => hone j (List.mem_cons_of_mem _ hj)), mul_one]
    exact hone i (by simp) _

/-- **C69.** The joint density of a net whose distributions are normalised integrates to one. -/
theorem C69_normalised (hm : m = none ∨ m = some .unset)
    (hc : Causal (denv constEv drawOf) (State.init lo m ob) ops) (l : (ℕ → X) → EReal)
    (h : (step (denv constEv drawOf) (hist (denv constEv drawOf) lo m ob ops) .logJoint).1 =
      .ok (.val l))
    (hobs : ∀ id, isObs (fin lo m ob ops) id = false)
    (hmeas : ∀ i, Measurable (fun p : (ℕ → X) × X => (nodeDist (fin lo m ob ops) i).dens
      ((nodeDist (fin lo m ob ops) i).params.map (eval constEv drawOf p.1)) p.2))
    (hone : ∀ i < (fin lo m ob ops).heap.length, ∀ v : ℕ → X,
      ∫⁻ x, (nodeDist (fin lo m ob ops) i).dens
        ((nodeDist (fin lo m ob ops) i).params.map (eval constEv drawOf v)) x ∂(μ i) = 1) (w : ℕ → X) :
    (∫⋯∫⁻_(Finset.range (fin lo m ob ops).heap.length), (fun v => (l v).exp) ∂μ) w = 1 := by
  have h1 := C69_law μ lo m ob ops hm hc l h hobs hmeas (fun _ => 1) measurable_const w
  simp only [one_mul] at h1
  rw [← h1]
  refine sampleE_one μ _ _ (fun i hi => hone i ?_) w
  exact ((C69_draws lo m ob ops hm hc l h).2 i).1 hi |>.1

end

/-! ### Programs -/

section
variable (ev : V → W → X) (dr : ℕ → W → X) (lo : Option (Dict Name (Option V)))
  (m : Option (LogJoint (W → EReal))) (prog : List (Decl X))

variable {ev dr lo m prog} in
/-- What the nodes of a finished program are, whatever has been drawn since. -/
theorem build_values {s S : State V (Dist V X) (W → EReal)} (h2 : BuildInv (denv ev dr) lo m prog s)
    (hstill : Still s S) (f1 : Inv (denv ev dr) S) :
    S.heap.length = prog.length ∧
    (∀ i, isObs S i = ((prog[i]?).bind (fun d => obsOf lo d.name)).isSome) ∧
    (∀ (i : ℕ) (d : Decl X), prog[i]? = some d → (nodeDist S i).dens = d.dens ∧
        ∀ w, (nodeDist S i).params.map (eval ev dr w) =
          d.parents.map (nodeVal ev dr lo prog w)) ∧
    (∀ i t, HasValue S i t → ∀ w, eval ev dr w t = nodeVal ev dr lo prog w i) := by
  have hlen : S.heap.length = prog.length := hstill.len_eq.trans h2.len
  have hobj : ∀ (i : ℕ) (d : Decl X), prog[i]? = some d → ∃ o, S.heap[i]? = some o ∧
      o.dist.dens = d.dens ∧ o.ready = true ∧ o.observation = obsOf lo d.name ∧
      List.Forall₂ (HasValue S) d.parents o.dist.params := by
    intro i d hd
    obtain ⟨o, g1, g2, g3, g4, g5⟩ := h2.obj i d hd
    obtain ⟨o', ho', hle⟩ := hstill.obj i o g1
    refine ⟨o', ho', by rw [hle.dist]; exact g2, by rw [hle.ready]; exact g3,
      by rw [hle.observation]; exact g4, ?_⟩
    rw [hle.dist]
    exact g5.imp (fun _ _ hv => hv.mono hstill.toGrow)
  have hval : ∀ i t, HasValue S i t → ∀ w, eval ev dr w t = nodeVal ev dr lo prog w i := by
    rintro i t ⟨o, ho, hv⟩ w
    have hlt : i < prog.length := by
      rw [← hlen]; exact (List.getElem?_eq_some_iff.1 ho).1
    have hd := List.getElem?_eq_getElem hlt
    obtain ⟨o', g1, _, g3, g4, _⟩ := hobj i _ hd
    rw [ho] at g1
    cases g1
    simp only [Obj.value, g3, if_true] at hv
    simp only [nodeVal, hd, Option.bind_some]
    rw [← g4]
    cases hoo : o.observation with
    | some v =>
      simp only [hoo, Option.map_some, Option.some_or, Option.some.injEq] at hv
      subst hv; rfl
    | none =>
      simp only [hoo, Option.map_none, Option.none_or] at hv
      obtain ⟨_, _, k, h4, _⟩ := (f1.objs i o ho).sampled _ hv
      subst h4; rfl
  have hpar : ∀ w (ps : List ℕ) (ts : List (Tensor V)), List.Forall₂ (HasValue S) ps ts →
      ts.map (eval ev dr w) = ps.map (nodeVal ev dr lo prog w) := by
    intro w ps ts hF
    induction hF with
    | nil => rfl
    | cons hx _ ih => simp only [List.map_cons, ih, hval _ _ hx w]
  refine ⟨hlen, ?_, ?_, hval⟩
  · intro i
    unfold isObs
    cases hd : prog[i]? with
    | none =>
      have : prog.length ≤ i := List.getElem?_eq_none_iff.1 hd
      rw [List.getElem?_eq_none (by rw [hlen]; exact this)]
      rfl
    | some d =>
      obtain ⟨o, g1, g2, g3, g4, g5⟩ := hobj i d hd
      rw [g1]
      simp [g4]
  · intro i d hd
    obtain ⟨o, g1, g2, g3, g4, g5⟩ := hobj i d hd
    rw [nodeDist_of g1]
    exact ⟨g2, fun w => hpar w _ _ g5⟩

variable {ev dr lo m prog} in
/-- The product of the densities of the nodes of a finished program is its chain-rule density. -/
theorem build_product {s S : State V (Dist V X) (W → EReal)} (h2 : BuildInv (denv ev dr) lo m prog s)
    (hstill : Still s S) (f1 : Inv (denv ev dr) S)
    (f3 : ∀ id, id < S.heap.length → HasValue S id (nodeValue S id)) (w : W) :
    ∏ id ∈ Finset.range S.heap.length, (nodeDist S id).at ev dr (nodeValue S id) w =
      jointDens prog (nodeVal ev dr lo prog w) := by
  obtain ⟨hlen, _, hdist, hval⟩ := build_values h2 hstill f1
  rw [hlen, ← Fin.prod_univ_eq_prod_range
    (fun id => (nodeDist S id).at ev dr (nodeValue S id) w)]
  unfold jointDens
  refine Finset.prod_congr rfl (fun i _ => ?_)
  obtain ⟨g1, g2⟩ := hdist i (prog.get i) (by simp)
  unfold Dist.at
  rw [g1, g2 w, hval i _ (f3 i (by rw [hlen]; exact i.2)) w]

/-- Running a program and asking for its log joint: everything there is to know. -/
theorem program_facts (hm : m = none ∨ m = some .unset) (hwf : WellFormed prog) :
    ∃ ops s l s', build (denv ev dr) (State.init lo m []) prog = (.ok (), s) ∧
      logJoint (denv ev dr) s = (.ok l, s') ∧
      s = hist (denv ev dr) lo m [] ops ∧ Causal (denv ev dr) (State.init lo m []) ops ∧
      s' = final ev dr lo m [] ops ∧
      (step (denv ev dr) (hist (denv ev dr) lo m [] ops) .logJoint).1 = .ok (.val l) ∧
      s'.heap.length = prog.length ∧
      (∀ i, isObs s' i = ((prog[i]?).bind (fun d => obsOf lo d.name)).isSome) ∧
      (∀ (i : ℕ) (d : Decl X), prog[i]? = some d → (nodeDist s' i).dens = d.dens ∧
        ∀ w, (nodeDist s' i).params.map (eval ev dr w) =
          d.parents.map (nodeVal ev dr lo prog w)) ∧
      (∀ w, (l w).exp = jointDens prog (nodeVal ev dr lo prog w)) := by
  obtain ⟨h1, h2⟩ := (BuildInv.init (denv ev dr) lo m).build (fun _ => rfl) (fun _ _ => rfl) []
    prog (by simpa using hwf)
  rcases hq : build (denv ev dr) (State.init lo m []) prog with ⟨a, s⟩
  rw [hq] at h1 h2
  simp only [List.nil_append] at h1 h2
  subst h1
  obtain ⟨l, hl⟩ := h2.logJoint_ok (fun _ => rfl) (fun _ _ => rfl) hm
  obtain ⟨ops, hops, hc⟩ := h2.hist
  have hops' : s = hist (denv ev dr) lo m [] ops := hops
  have hs' : (logJoint (denv ev dr) s).2 = final ev dr lo m [] ops := by
    simp only [final, ← hops', step]
    rcases logJoint (denv ev dr) s with ⟨a, s1⟩
    cases a <;> rfl
  have hst : (step (denv ev dr) (hist (denv ev dr) lo m [] ops) .logJoint).1 = .ok (.val l) := by
    simp only [← hops', step]
    rw [hl]
  obtain ⟨f1, f2, f3, f4⟩ := final_facts ev dr lo m [] ops hm hc l hst
  have hstill : Still s (final ev dr lo m [] ops) := by
    rw [hops']; exact logJoint_still _ _ (hist_inv _ _ _ _ _)
  obtain ⟨hlen, hob, hdist, _⟩ := build_values h2 hstill f1
  refine ⟨ops, s, l, _, rfl, by rw [hl, hs'], hops', hc, rfl, hst, hlen, hob, hdist, fun w => ?_⟩
  rw [f4 w]
  exact build_product h2 hstill f1 f3 w

/-- **C69.** A well-formed model-building function runs without exceptions, under every observation, and the
log joint of the net it returns is the logarithm of the chain-rule density of the program, at the observed
values for the observed nodes and the sampled values for the others. -/
theorem C69_program (hm : m = none ∨ m = some .unset) (hwf : WellFormed prog) :
    ∃ s l s', build (denv ev dr) (State.init lo m []) prog = (.ok (), s) ∧
      logJoint (denv ev dr) s = (.ok l, s') ∧
      ∀ w, l w = (jointDens prog (nodeVal ev dr lo prog w)).log := by
  obtain ⟨_, s, l, s', h1, h2, _, _, _, _, _, _, _, h3⟩ := program_facts ev dr lo m prog hm hwf
  exact ⟨s, l, s', h1, h2, fun w => by rw [← h3 w]; simp⟩

end

section
variable [MeasurableSpace X] (μ : ℕ → Measure X) [∀ i, SigmaFinite (μ i)]
  (m : Option (LogJoint ((ℕ → X) → EReal))) (prog : List (Decl X))

/-- **C69.** The samples of the nodes of a program, made in the order in which the run asks for them, have the
chain-rule density of the program. -/
theorem C69_program_law (hm : m = none ∨ m = some .unset) (hwf : WellFormed prog)
    (hmeas : ∀ d ∈ prog, Measurable (fun p : (ℕ → X) × X => d.dens (d.parents.map p.1) p.2)) :
    ∃ s l s', build (denv constEv drawOf) (State.init none m []) prog = (.ok (), s) ∧
      logJoint (denv constEv drawOf) s = (.ok l, s') ∧
      ∀ (f : (ℕ → X) → ℝ≥0∞), Measurable f → ∀ w,
        sampleE μ (nodeDist s') s'.draws f w =
          (∫⋯∫⁻_(Finset.range prog.length), (fun v => f v * jointDens prog v) ∂μ) w := by
  obtain ⟨ops, s, l, s', h1, h2, h3, h4, h5, h6, h7, h8, h9, h10⟩ :=
    program_facts constEv drawOf none m prog hm hwf
  have hnv : ∀ v : ℕ → X, nodeVal (V := X) constEv drawOf none prog v = v := by
    intro v; funext i
    simp only [nodeVal, obsOf]
    cases prog[i]? <;> rfl
  have hmeas' : ∀ i, Measurable (fun p : (ℕ → X) × X => (nodeDist s' i).dens
      ((nodeDist s' i).params.map (eval constEv drawOf p.1)) p.2) := by
    intro i
    cases hd : prog[i]? with
    | none =>
      have : prog.length ≤ i := List.getElem?_eq_none_iff.1 hd
      have : s'.heap[i]? = none := List.getElem?_eq_none (by rw [h7]; exact this)
      simp only [nodeDist, this]
      exact measurable_const
    | some d =>
      obtain ⟨g1, g2⟩ := h9 i d hd
      simp only [g1, g2, hnv]
      exact hmeas d (List.mem_of_getElem? hd)
  refine ⟨s, l, s', h1, h2, fun f hf w => ?_⟩
  subst h5
  rw [C69_law μ none m [] ops hm h4 l h6 (fun id => by
    rw [fin, h8]
    cases prog[id]? <;> rfl) hmeas' f hf w, fin, h7]
  simp only [h10, hnv]

/-- **C69.** If every node's density is normalised for all values of its parents, the joint density of the
program integrates to one. -/
theorem C69_program_normalised (hwf : WellFormed prog)
    (hmeas : ∀ d ∈ prog, Measurable (fun p : (ℕ → X) × X => d.dens (d.parents.map p.1) p.2))
    (hone : ∀ (i : ℕ) (d : Decl X), prog[i]? = some d → ∀ v : ℕ → X,
      ∫⁻ x, d.dens (d.parents.map v) x ∂(μ i) = 1) (w : ℕ → X) :
    (∫⋯∫⁻_(Finset.range prog.length), jointDens prog ∂μ) w = 1 := by
  obtain ⟨ops, s, l, s', h1, h2, h3, h4, h5, h6, h7, h8, h9, h10⟩ :=
    program_facts constEv drawOf none none prog (Or.inl rfl) hwf
  obtain ⟨s2, l2, s2', k1, k2, k3⟩ := C69_program_law μ none prog (Or.inl rfl) hwf hmeas
  rw [h1] at k1
  cases k1
  rw [h2] at k2
  cases k2
  have := k3 (fun _ => 1) measurable_const w
  simp only [one_mul] at this
  rw [show (fun v => jointDens prog v) = jointDens prog from rfl] at this
  rw [← this]
  refine sampleE_one μ _ _ (fun i hi => ?_) w
  have hlt : i < prog.length := by
    rw [← h7]
    subst h5
    exact ((C69_draws none none [] ops (Or.inl rfl) h4 l h6).2 i).1 hi |>.1
  intro v
  obtain ⟨g1, g2⟩ := h9 i _ (List.getElem?_eq_getElem hlt)
  rw [g1, g2]
  exact hone i _ (List.getElem?_eq_getElem hlt) _

end

/-! ### A concrete net -/

/-- A fair coin `z` and a noisy copy `x` of it. -/
noncomputable def coins : List (Decl Bool) :=
  [⟨"z", [], fun _ _ => 1 / 2⟩,
   ⟨"x", [0], fun ps x => if ps = [x] then 3 / 4 else 1 / 4⟩]

theorem coins_wf : WellFormed coins := by
  refine ⟨by simp [coins], fun i d hd p hp => ?_⟩
  match i with
  | 0 => simp [coins] at hd; subst hd; simp at hp
  | 1 => simp [coins] at hd; subst hd; simp at hp; omega
  | n + 2 => simp [coins] at hd

theorem coins_meas : ∀ d ∈ coins,
    Measurable (fun p : (ℕ → Bool) × Bool => d.dens (d.parents.map p.1) p.2) := by
  intro d hd
  simp only [coins, List.mem_cons, List.not_mem_nil, or_false] at hd
  rcases hd with rfl | rfl
  · exact measurable_const
  · have h : Measurable (fun q : Bool × Bool => if [q.1] = [q.2] then (3 / 4 : ℝ≥0∞) else 1 / 4) :=
      Measurable.of_discrete
    exact h.comp (f := fun a : (ℕ → Bool) × Bool => (a.1 0, a.2))
      (((measurable_pi_apply 0).comp measurable_fst).prodMk measurable_snd)

/-- The hypotheses of the theorems hold for it: the joint mass of the two coins is one, and the log joint with
`x` observed is `log (1/2 * 3/4)` where `z` agrees with it. -/
example (w : ℕ → Bool) :
    (∫⋯∫⁻_(Finset.range coins.length), jointDens coins ∂(fun _ => Measure.count)) w = 1 := by
  refine C69_program_normalised (fun _ => Measure.count) coins coins_wf coins_meas ?_ w
  intro i d hd v
  match i with
  | 0 =>
    simp [coins] at hd; subst hd
    simp only [lintegral_const, Measure.count_univ, ENat.card_eq_coe_fintype_card, Fintype.card_bool]
    norm_num
    exact ENNReal.inv_mul_cancel (by simp) (by simp)
  | 1 =>
    simp [coins] at hd; subst hd
    rw [lintegral_count, tsum_bool]
    have h : (3 / 4 : ℝ≥0∞) + 1 / 4 = 1 := by
      rw [ENNReal.div_add_div_same]
      norm_num
      exact ENNReal.div_self (by simp) (by simp)
    cases hv : v 0
    · simpa [hv] using h
    · rw [add_comm]; simpa [hv] using h
  | n + 2 => simp [coins] at hd

example : ∃ s l s', build (denv (V := Bool) constEv drawOf)
      (State.init (some [("x", some true)]) (some .unset) []) coins = (.ok (), s) ∧
    logJoint (denv constEv drawOf) s = (.ok l, s') ∧
    ∀ w : ℕ → Bool, w 0 = true → l w = (1 / 2 * (3 / 4) : ℝ≥0∞).log := by
  obtain ⟨s, l, s', h1, h2, h3⟩ := C69_program constEv drawOf (some [("x", some true)])
    (some .unset) coins (Or.inr rfl) coins_wf
  refine ⟨s, l, s', h1, h2, fun w hw => ?_⟩
  have h : ∀ (a b : Decl Bool) (x : ℕ → Bool), jointDens [a, b] x =
      a.dens (a.parents.map x) (x 0) * b.dens (b.parents.map x) (x 1) := by
    intro a b x
    simp [jointDens, Fin.prod_univ_succ]
  rw [h3 w, coins, h]
  simp [nodeVal, obsOf, Dict.get?, hw]

end ZhuSuan.BN
