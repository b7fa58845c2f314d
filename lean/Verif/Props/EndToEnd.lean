import Mathlib.Analysis.Convex.Integral
import Mathlib.Analysis.Convex.SpecificFunctions.Basic
import Mathlib.Analysis.SpecialFunctions.Log.ENNRealLogExp
import Verif.Spec.EndToEnd
import Verif.Props.Program
import Verif.Props.VObjective

/-!
# C70: the objective built from a variational program and a model program
-/

set_option autoImplicit false

namespace ZhuSuan.VObj
open ZhuSuan.BN
open scoped ENNReal
open MeasureTheory

variable {X : Type}

theorem unobserved_ok {V D L : Type} (q : State V D L) (l : List (Name × Ref V))
    (h : ∀ n id, (n, Ref.stoch id) ∈ l → ∃ o : Obj V D L, q.heap[id]? = some o ∧ o.ready = true) :
    ∃ ins, unobserved q l = .ok ins := by
  induction l with
  | nil => exact ⟨[], rfl⟩
  | cons a l ih =>
    obtain ⟨n, r⟩ := a
    obtain ⟨ins, hins⟩ := ih (fun n id hm => h n id (List.mem_cons_of_mem _ hm))
    cases r with
    | det t => exact ⟨ins, hins⟩
    | stoch id =>
      obtain ⟨o, h1, h2⟩ := h n id (by simp)
      simp only [unobserved, h1, h2, hins, Bool.true_eq_false, if_false]
      by_cases hob : o.observation.isSome
      · exact ⟨ins, by rw [if_pos hob]⟩
      · exact ⟨_, by rw [if_neg hob]⟩

theorem comprehension_snd {V D L A B N : Type} (f : State V D L → A → Except Err B × State V D L)
    (s : State V D L) (l : List (N × A)) :
    comprehension (fun s (i : N × A) => f s i.2) s l = comprehension f s (l.map Prod.snd) := by
  induction l generalizing s with
  | nil => rfl
  | cons a l ih =>
    simp only [comprehension, List.map_cons]
    rcases f s a.2 with ⟨r, s1⟩
    cases r with
    | error e => rfl
    | ok b => simp only [ih]

/-- The variational side: what the objective holds. -/
theorem variational_facts (Q : List (Decl X)) (hQ : WellFormed Q)
    (mq : Option (LogJoint ((ℕ → X) → EReal))) (observed : Dict Name (Tensor X)) :
    ∃ sq v q', build (denv (X := X) constEv drawOf) (State.init none mq []) Q = (.ok (), sq) ∧
      construct (denv constEv drawOf) (some (.net sq)) none observed = .ok (v, some q') ∧
      BuildInv (denv constEv drawOf) none mq Q sq ∧ Still sq q' ∧ Inv (denv constEv drawOf) q' ∧
      (∀ id, id < q'.heap.length → HasValue q' id (nodeValue q' id)) ∧
      v.observed = observed ∧ v.vInputs.WF ∧
      (∀ n, (v.vInputs.get? n).map (fun i => i.value (some q')) =
        (Q.findIdx? (fun e => e.name = n)).map (fun j => some (nodeValue q' j))) ∧
      (∀ w j, j < Q.length → eval constEv drawOf w (nodeValue q' j) = w j) ∧
      (∀ w, (v.vLogProbs.map Prod.snd).sum w = (jointDens Q w).log) ∧
      (v.vLogProbs.length = Q.length) := by
  obtain ⟨h1, h2⟩ := (BuildInv.init (denv (V := X) (X := X) constEv drawOf) none mq).build
    (fun _ => rfl) (fun _ _ => rfl) [] Q (by simpa using hQ)
  rcases hq : build (denv (V := X) (X := X) constEv drawOf) (State.init none mq []) Q with ⟨a, sq⟩
  rw [hq] at h1 h2
  simp only [List.nil_append] at h1 h2
  subst h1
  obtain ⟨ops, hops, hc⟩ := h2.hist
  have hops' : sq = hist (denv constEv drawOf) none mq [] ops := hops
  have hinv := h2.inv
  -- the nodes are exactly the statements
  have hnodes : ∀ n id, (n, Ref.stoch id) ∈ sq.nodes →
      ∃ d, Q[id]? = some d ∧ d.name = n := by
    intro n id hm
    have hg := (Dict.get?_eq_some_iff hinv.wf).2 hm
    by_cases hn : n ∈ Q.map Decl.name
    · obtain ⟨d, hd, rfl⟩ := List.mem_map.1 hn
      obtain ⟨j, hj⟩ := List.mem_iff_getElem?.1 hd
      have := h2.named j d hj
      rw [hg] at this
      cases this
      exact ⟨d, hj, rfl⟩
    · rw [h2.fresh n hn] at hg; cases hg
  have hready : ∀ id, id < Q.length → ∃ o : Obj X (Dist X X) ((ℕ → X) → EReal),
      sq.heap[id]? = some o ∧ o.ready = true ∧ o.observation = none := by
    intro id hid
    obtain ⟨o, g1, _, g3, g4, _⟩ := h2.obj id _ (List.getElem?_eq_getElem hid)
    exact ⟨o, g1, g3, g4⟩
  have hlt : ∀ {id d}, Q[id]? = some d → id < Q.length := fun h =>
    (List.getElem?_eq_some_iff.1 h).1
  obtain ⟨ins, hins⟩ := unobserved_ok sq sq.nodes (by
    intro n id hm
    obtain ⟨d, hd, _⟩ := hnodes n id hm
    obtain ⟨o, g1, g2, _⟩ := hready id (hlt hd)
    exact ⟨o, g1, g2⟩)
  obtain ⟨hi1, hi2⟩ := unobserved_spec _ _ _ hins
  have hmem : ∀ n id, (n, id) ∈ ins ↔ ∃ d, Q[id]? = some d ∧ d.name = n := by
    intro n id
    rw [hi1]
    constructor
    · rintro ⟨a, _⟩; exact hnodes n id a
    · rintro ⟨d, hd, rfl⟩
      obtain ⟨o, g1, _, g3⟩ := hready id (hlt hd)
      exact ⟨(Dict.get?_eq_some_iff hinv.wf).1 (h2.named id d hd), o, g1, g3⟩
  obtain ⟨ls, hls⟩ := comprehension_condLogP_ok (denv (V := X) (X := X) constEv drawOf)
    (fun _ => rfl) (fun _ _ => rfl) (ins.map Prod.snd) sq hinv (by
      intro id hid
      obtain ⟨⟨n, id'⟩, hm, rfl⟩ := List.mem_map.1 hid
      obtain ⟨d, hd, _⟩ := (hmem _ _).1 hm
      obtain ⟨o, g1, g2, _⟩ := hready _ (hlt hd)
      exact ⟨o, g1, g2⟩)
  have hcon : ∃ v q', construct (denv (V := X) (X := X) constEv drawOf) (some (.net sq)) none observed =
      .ok (v, some q') := by
    simp only [construct, hins]
    rw [comprehension_snd]
    rcases hq2 : comprehension (objCondLogP (denv (V := X) (X := X) constEv drawOf)) sq
      (ins.map Prod.snd) with ⟨a, q'⟩
    rw [hq2] at hls
    simp only at hls
    subst hls
    exact ⟨_, _, rfl⟩
  obtain ⟨v, q', hcon⟩ := hcon
  have hcon' := hcon
  rw [hops'] at hcon'
  obtain ⟨ins', ls', q1, k1, k2, k3, k4, k5⟩ := construct_spec _ _ _ _ _ _ _ _ hcon'
  rw [← hops'] at k1 k3
  rw [hins] at k1
  cases k1
  cases k2
  subst k5
  have hlen : q'.heap.length = Q.length := k3.len_eq.trans h2.len
  have hF : List.Forall₂ (CondIs (denv (V := X) (X := X) constEv drawOf) q')
      (ins.map Prod.snd) ls' := by
    rw [List.forall₂_map_left_iff]; exact k4
  have hids : ∀ id, id ∈ ins.map Prod.snd ↔ id < q'.heap.length := by
    intro id
    rw [hlen]
    constructor
    · intro hid
      obtain ⟨⟨n, id'⟩, hm, rfl⟩ := List.mem_map.1 hid
      obtain ⟨d, hd, _⟩ := (hmem _ _).1 hm
      exact hlt hd
    · intro hid
      exact List.mem_map.2 ⟨(_, id), (hmem _ id).2 ⟨_, List.getElem?_eq_getElem hid, rfl⟩, rfl⟩
  have hwfn : (ins.map Prod.fst).Nodup := hi2.nodup hinv.wf
  have hnd : (ins.map Prod.snd).Nodup := by
    refine List.Nodup.map_on ?_ hwfn.of_map
    rintro ⟨n, i⟩ hx ⟨n', i'⟩ hy (rfl : i = i')
    obtain ⟨d, hd, rfl⟩ := (hmem _ _).1 hx
    obtain ⟨d', hd', rfl⟩ := (hmem _ _).1 hy
    rw [hd] at hd'
    cases hd'
    rfl
  have hinv' : Inv (denv (V := X) (X := X) constEv drawOf) q' := by
    have := comprehension_spec (denv (V := X) (X := X) constEv drawOf)
      (fun s (i : Name × ℕ) => objCondLogP (denv constEv drawOf) s i.2)
      (fun s i l => CondIs (denv constEv drawOf) s i.2 l) (fun s i hi => objCondLogP_spec _ s i.2 hi)
      (fun s s' i a hA hP => hP.mono hA.toGrow) ins _ hinv
    simp only [construct, hins] at hcon
    rcases hq2 : comprehension (fun s (i : Name × ℕ) =>
      objCondLogP (denv (V := X) (X := X) constEv drawOf) s i.2) sq ins with ⟨r, q2⟩
    rw [hq2] at hcon this
    cases r with
    | error e => cases hcon
    | ok l =>
      simp only [Except.ok.injEq, Prod.mk.injEq, Option.some.injEq] at hcon
      rw [← hcon.2]; exact this.1
  have hvals : ∀ id, id < q'.heap.length → HasValue q' id (nodeValue q' id) := by
    intro id hid
    obtain ⟨k, hk, rfl⟩ := List.getElem_of_mem ((hids id).2 hid)
    have hk2 : k < ls'.length := by rw [← hF.length_eq]; exact hk
    obtain ⟨o, t, g1, g2, _⟩ := hF.get hk hk2
    have hv : HasValue q' (ins.map Prod.snd)[k] t := ⟨o, g1, g2⟩
    rw [nodeValue_of hv]; exact hv
  have hnv : ∀ w : ℕ → X, nodeVal (V := X) constEv drawOf none Q w = w := by
    intro w; funext i
    simp only [nodeVal, obsOf]
    cases Q[i]? <;> rfl
  have hprod : ∀ w, ∏ id ∈ Finset.range q'.heap.length,
      (nodeDist q' id).at constEv drawOf (nodeValue q' id) w = jointDens Q w := by
    intro w
    have := build_product h2 k3.still hinv' hvals w
    rw [this, hnv]
  refine ⟨sq, _, q', rfl, hcon, h2, k3.still, hinv', hvals, rfl, ?_, ?_, ?_, ?_, ?_⟩
  · unfold Dict.WF Dict.keys
    simpa [Function.comp_def] using hwfn
  · intro n
    have hget : Dict.get? (ins.map (fun i => (i.1, (VIn.node i.2 : VIn X)))) n =
        (Q.findIdx? (fun e => e.name = n)).map VIn.node := by
      have hwf : Dict.WF (ins.map (fun i => (i.1, (VIn.node i.2 : VIn X)))) := by
        unfold Dict.WF Dict.keys
        simpa [Function.comp_def] using hwfn
      cases hf : Q.findIdx? (fun e => e.name = n) with
      | some j =>
        obtain ⟨hj, hp, _⟩ := List.findIdx?_eq_some_iff_getElem.1 hf
        simp only [Option.map_some]
        rw [Dict.get?_eq_some_iff hwf]
        exact List.mem_map.2 ⟨(n, j), (hmem n j).2 ⟨_, List.getElem?_eq_getElem hj, by simpa using hp⟩, rfl⟩
      | none =>
        simp only [Option.map_none]
        rw [Option.eq_none_iff_forall_ne_some]
        intro x hx
        rw [Dict.get?_eq_some_iff hwf] at hx
        obtain ⟨⟨n', id⟩, hm, he⟩ := List.mem_map.1 hx
        simp only [Prod.mk.injEq] at he
        obtain ⟨rfl, rfl⟩ := he
        obtain ⟨d, hd, rfl⟩ := (hmem _ _).1 hm
        have := List.findIdx?_eq_none_iff.1 hf d (List.mem_of_getElem? hd)
        simp at this
    rw [hget]
    cases hf : Q.findIdx? (fun e => e.name = n) with
    | none => rfl
    | some j =>
      obtain ⟨hj, _, _⟩ := List.findIdx?_eq_some_iff_getElem.1 hf
      simp only [Option.map_some]
      rw [value_of_hasValue.2 (hvals j (by rw [hlen]; exact hj))]
  · intro w j hj
    have := (build_values h2 k3.still hinv').2.2.2 j _ (hvals j (by rw [hlen]; exact hj)) w
    rw [this, hnv]
  · intro w
    have hzip : ((ins.map Prod.fst).zip ls').map Prod.snd = ls' := by
      rw [List.map_snd_zip]
      simp [← k4.length_eq]
    rw [hzip, ← hprod w, ← joint_product constEv drawOf q' _ hids hnd ls' hF w]
    simp
  · simp only [List.length_zip, List.length_map, ← k4.length_eq, min_self]
    have : (ins.map Prod.snd).toFinset = Finset.range Q.length := by
      ext id; rw [List.mem_toFinset, hids, hlen]; simp
    have h3 := List.toFinset_card_of_nodup hnd
    rw [this] at h3
    simpa using h3.symm

/-- **C70.** Two well-formed programs and observations make an objective without exceptions. -/
theorem C70_runs (Q P : List (Decl X)) (hQ : WellFormed Q) (hP : WellFormed P)
    (mq m : Option (LogJoint ((ℕ → X) → EReal))) (hm : m = none ∨ m = some .unset)
    (observed : Dict Name (Tensor X)) (dr : ℕ → (ℕ → X) → X) :
    ∃ v q' l, Ran Q P mq m observed dr v q' l := by
  obtain ⟨sq, v, q', h1, h2, _⟩ := variational_facts Q hQ mq observed
  obtain ⟨s, l, s', g1, g2, g3⟩ := C69_program (fun t w => eval (constEv (X := X)) drawOf w t) dr
    (some (v.given (some q'))) m P hm hP
  exact ⟨v, q', l, sq, s, s', h1, h2,
    C38_missing_posterior_accepted _ v (some q') s (by simp only [observe, g1]), g2⟩

section
variable {Q P : List (Decl X)} {mq m : Option (LogJoint ((ℕ → X) → EReal))}
  {observed : Dict Name (Tensor X)} {dr : ℕ → (ℕ → X) → X} {v : VObj X ((ℕ → X) → EReal)}
  {q' : State X (Dist X X) ((ℕ → X) → EReal)} {l : (ℕ → X) → EReal}

/-- **C70.** The two terms of the objective: the log joint is the log of the chain-rule density of the model
program, each node at its observed value or at the variational sample of its name, and the variational log
probabilities add up to the log of the chain-rule density of the variational program at its samples. -/
theorem C70_terms (hQ : WellFormed Q) (hP : WellFormed P) (hm : m = none ∨ m = some .unset)
    (ho : observed.WF) (h : Ran Q P mq m observed dr v q' l) (w : ℕ → X) :
    l w = (jointDens P (modelVals observed Q P dr w)).log ∧
    (v.vLogProbs.map Prod.snd).sum w = (jointDens Q w).log ∧ v.vLogProbs.length = Q.length := by
  obtain ⟨sq0, s0, s0', e1, e2, e3, e4⟩ := h
  obtain ⟨sq, v1, q1, h1, h2, _, _, _, _, h3, h4, h5, h6, h7, h8⟩ := variational_facts Q hQ mq observed
  rw [h1] at e1
  cases e1
  rw [h2] at e2
  cases e2
  obtain ⟨s, l1, s', g1, g2, g3⟩ := C69_program (fun t w => eval (constEv (X := X)) drawOf w t) dr
    (some (v.given (some q'))) m P hm hP
  rw [C38_missing_posterior_accepted _ v (some q') s (by simp only [observe, g1])] at e3
  cases e3
  rw [g2] at e4
  cases e4
  have hval : nodeVal (fun t w => eval (constEv (X := X)) drawOf w t) dr (some (v.given (some q'))) P w =
      modelVals observed Q P dr w := by
    funext i
    simp only [nodeVal, modelVals]
    cases hd : P[i]? with
    | none => rfl
    | some d =>
      simp only [Option.bind_some, obsOf]
      rw [C38_observed_wins v (some q') (by rw [h3]; exact ho) h4 d.name, h3, h5]
      cases observed.get? d.name with
      | some t => rfl
      | none =>
        simp only
        cases hf : Q.findIdx? (fun e => decide (e.name = d.name)) with
        | none => rfl
        | some j =>
          obtain ⟨hj, _, _⟩ := List.findIdx?_eq_some_iff_getElem.1 hf
          exact h6 w j hj
  have hl : l w = (jointDens P (modelVals observed Q P dr w)).log := by rw [g3 w, hval]
  exact ⟨hl, h7 w, h8⟩

/-- **C70.** The objective is `log p - log q`: the chain-rule density of the model program, each node at its
observed value or at the variational sample of its name, and the chain-rule density of the variational program
at its samples. -/
theorem C70_elbo_value (hQ : WellFormed Q) (hP : WellFormed P) (hm : m = none ∨ m = some .unset)
    (ho : observed.WF) (h : Ran Q P mq m observed dr v q' l) (w : ℕ → X) :
    elbo l v w = (jointDens P (modelVals observed Q P dr w)).log - (jointDens Q w).log := by
  obtain ⟨hl, h7, h8⟩ := C70_terms hQ hP hm ho h w
  unfold elbo entropyTerm
  by_cases hpos : 0 < v.vLogProbs.length
  · simp only [hpos, if_true, Pi.add_apply, Pi.neg_apply, hl, h7]
    rfl
  · simp only [hpos, if_false, hl]
    have : Q = [] := List.length_eq_zero_iff.1 (by omega)
    subst this
    simp [jointDens]

variable [MeasurableSpace X]

theorem jointDens_measurable (prog : List (Decl X))
    (hmeas : ∀ d ∈ prog, Measurable (fun p : (ℕ → X) × X => d.dens (d.parents.map p.1) p.2)) :
    Measurable (jointDens prog) := by
  unfold jointDens
  refine Finset.measurable_prod _ (fun i _ => ?_)
  exact (hmeas _ (List.get_mem _ _)).comp (measurable_id.prodMk (measurable_pi_apply _))

theorem lintegral_latentLaw (μ : Name → Measure X)
    (hmeas : ∀ d ∈ Q, Measurable (fun p : (ℕ → X) × X => d.dens (d.parents.map p.1) p.2))
    (f : (ℕ → X) → ℝ≥0∞) (hf : Measurable f) (w0 : ℕ → X) :
    ∫⁻ w, f w ∂(latentLaw μ Q w0) =
      (∫⋯∫⁻_(Finset.range Q.length), (fun v => f v * jointDens Q v) ∂(baseOf μ Q)) w0 := by
  have hj := jointDens_measurable Q hmeas
  unfold latentLaw lmarginal
  rw [lintegral_withDensity_eq_lintegral_mul _ hj hf, lintegral_map (hj.mul hf)
    measurable_updateFinset]
  simp only [Pi.mul_apply, mul_comm]

instance (μ : Name → Measure X) [∀ n, SigmaFinite (μ n)] (prog : List (Decl X)) (i : ℕ) :
    SigmaFinite (baseOf μ prog i) := by
  unfold baseOf
  split <;> infer_instance

/-- **C70.** The samples at which the objective is evaluated have the distribution `latentLaw`. -/
theorem C70_samples (μ : Name → Measure X) [∀ n, SigmaFinite (μ n)] (hQ : WellFormed Q)
    (hmeas : ∀ d ∈ Q, Measurable (fun p : (ℕ → X) × X => d.dens (d.parents.map p.1) p.2))
    (h : Ran Q P mq m observed dr v q' l)
    (f : (ℕ → X) → ℝ≥0∞) (hf : Measurable f) (w0 : ℕ → X) :
    sampleE (baseOf μ Q) (nodeDist q') q'.draws f w0 = ∫⁻ w, f w ∂(latentLaw μ Q w0) := by
  obtain ⟨sq0, s0, s0', e1, e2, e3, e4⟩ := h
  obtain ⟨sq, v1, q1, h1, h2, b1, b2, b3, b4, _⟩ := variational_facts Q hQ mq observed
  rw [h1] at e1
  cases e1
  rw [h2] at e2
  cases e2
  have hn : NetInv q' := by
    obtain ⟨ops, he, hc⟩ := b1.hist
    have := run_netInv _ ops _ (init_inv _ none mq []) (init_netInv none mq []) hc
    rw [← he] at this
    exact this.mono b3 b2
  have hnv : ∀ w : ℕ → X, nodeVal (V := X) constEv drawOf none Q w = w := by
    intro w; funext i
    simp only [nodeVal, obsOf]
    cases Q[i]? <;> rfl
  obtain ⟨c1, c2, c3, c4⟩ := build_values b1 b2 b3
  have hno : ∀ i, isObs q' i = false := by
    intro i
    rw [c2]
    cases Q[i]? <;> rfl
  have hmeas' : ∀ i, Measurable (fun p : (ℕ → X) × X => (nodeDist q' i).dens
      ((nodeDist q' i).params.map (eval constEv drawOf p.1)) p.2) := by
    intro i
    cases hd : Q[i]? with
    | none =>
      have : Q.length ≤ i := List.getElem?_eq_none_iff.1 hd
      have : q'.heap[i]? = none := List.getElem?_eq_none (by rw [c1]; exact this)
      simp only [nodeDist, this]
      exact measurable_const
    | some d =>
      obtain ⟨g1, g2⟩ := c3 i d hd
      simp only [g1, g2, hnv]
      exact hmeas d (List.mem_of_getElem? hd)
  have h5 := sampling_of_state (baseOf μ Q) b3 hn b4 hmeas' f hf w0
  have hset : q'.draws.toFinset = Finset.range Q.length := by
    ext id; simp [(draws_of_state b3 hn b4).2, hno, c1]
  have hp : ∀ w, ∏ id ∈ Finset.range q'.heap.length,
      (nodeDist q' id).at constEv drawOf (nodeValue q' id) w = jointDens Q w := by
    intro w
    rw [build_product b1 b2 b3 b4 w, hnv]
  rw [hset] at h5
  simp only [hp] at h5
  rw [lintegral_latentLaw μ hmeas f hf w0, ← h5]
  simp [hno]


/-! ### The evidence -/

theorem consts_get? (obs : Dict Name X) (n : Name) :
    (consts obs).get? n = (obs.get? n).map Tensor.ext := by
  unfold consts
  induction obs with
  | nil => rfl
  | cons a d ih =>
    obtain ⟨k, x⟩ := a
    simp only [List.map_cons, Dict.get?]
    by_cases hk : k = n
    · simp [hk]
    · simp [hk, ih]

theorem consts_wf {obs : Dict Name X} (h : obs.WF) : (consts obs).WF := by
  unfold Dict.WF Dict.keys consts at *
  simpa [Function.comp_def] using h

omit [MeasurableSpace X] in
theorem jointDens_congr {prog : List (Decl X)} (hwf : WellFormed prog) {x y : ℕ → X}
    (h : ∀ i, i < prog.length → x i = y i) : jointDens prog x = jointDens prog y := by
  unfold jointDens
  refine Finset.prod_congr rfl (fun i _ => ?_)
  rw [h i i.2]
  congr 1
  refine List.map_congr_left (fun p hp => h p ?_)
  exact (hwf.2 i _ (by simp) p hp).trans i.2

theorem modelVals_measurable (obs : Dict Name X) (hdr : ∀ i, Measurable (dr i)) :
    Measurable (modelVals (consts obs) Q P dr) := by
  refine measurable_pi_iff.2 (fun i => ?_)
  simp only [modelVals]
  cases P[i]? with
  | none => exact hdr i
  | some d =>
    simp only [consts_get?]
    cases obs.get? d.name with
    | some x => exact measurable_const
    | none =>
      simp only [Option.map_none]
      cases Q.findIdx? (fun c => decide (c.name = d.name)) with
      | some j => exact measurable_pi_apply j
      | none => exact hdr i

/-- Integrating the model's joint density over the variational samples is integrating it over the model's own
latent variables. -/
theorem evidence_eq (μ : Name → Measure X) [∀ n, SigmaFinite (μ n)] (hQ : WellFormed Q)
    (hP : WellFormed P) (obs : Dict Name X) (hcov : Covers Q P obs)
    (hmeas : ∀ d ∈ P, Measurable (fun p : (ℕ → X) × X => d.dens (d.parents.map p.1) p.2))
    (w0 : ℕ → X) (x0 : X) (hdr : ∀ i, Measurable (dr i)) :
    (∫⋯∫⁻_(Finset.range Q.length), (fun w => jointDens P (modelVals (consts obs) Q P dr w))
      ∂(baseOf μ Q)) w0 = evidence μ P obs x0 := by
  classical
  have hjm := jointDens_measurable P hmeas
  -- the place of a variational node in the model
  have hplace : ∀ j : Fin Q.length, ∃ (i : ℕ) (d : Decl X), P[i]? = some d ∧ d.name = (Q.get j).name := by
    intro j
    have := ((hcov (Q.get j).name).1 (List.mem_map.2 ⟨_, List.get_mem _ _, rfl⟩)).1
    obtain ⟨d, hd, hn⟩ := List.mem_map.1 this
    obtain ⟨i, hi⟩ := List.mem_iff_getElem?.1 hd
    exact ⟨i, d, hi, hn⟩
  choose e de he hne using hplace
  have hQinj : ∀ j k : Fin Q.length, (Q.get j).name = (Q.get k).name → j = k := by
    intro j k hjk
    have := List.nodup_iff_injective_get.1 hQ.1
    have h2 := @this (j.cast (by simp)) (k.cast (by simp)) (by simpa using hjk)
    exact Fin.ext (by simpa using congrArg Fin.val h2)
  have hPinj : ∀ (i k : ℕ) (d d' : Decl X), P[i]? = some d → P[k]? = some d' → d.name = d'.name →
      i = k := by
    intro i k d d' h1 h2 h3
    have hi : i < P.length := (List.getElem?_eq_some_iff.1 h1).1
    refine (List.getElem?_inj (l := P.map Decl.name) (by simpa using hi) hP.1).1 ?_
    simp [h1, h2, h3]
  have heinj : Function.Injective e := by
    intro j k hjk
    refine hQinj j k ?_
    rw [← hne j, ← hne k]
    have h1 := he j
    rw [hjk, he k] at h1
    rw [Option.some.inj h1]
  have hfind : ∀ (j : Fin Q.length), Q.findIdx? (fun c => c.name = (Q.get j).name) = some j.val := by
    intro j
    rw [List.findIdx?_eq_some_iff_getElem]
    refine ⟨j.2, by simp, fun k hk => ?_⟩
    simp only [decide_eq_true_eq]
    intro hc
    have := hQinj ⟨k, hk.trans j.2⟩ j (by simpa using hc)
    rw [← this] at hk
    exact lt_irrefl _ hk
  have hunobs : ∀ j, obs.get? (Q.get j).name = none := fun j =>
    ((hcov (Q.get j).name).1 (List.mem_map.2 ⟨_, List.get_mem _ _, rfl⟩)).2
  -- a sample of the variational nodes as a world
  let ext : (Fin Q.length → X) → ℕ → X := fun u k => if h : k < Q.length then u ⟨k, h⟩ else w0 k
  have hext : Measurable ext := by
    refine measurable_pi_iff.2 (fun k => ?_)
    by_cases h : k < Q.length
    · simp only [ext, h, dif_pos]; exact measurable_pi_apply _
    · simp only [ext, h, dif_neg, not_false_iff]; exact measurable_const
  let f : (Fin Q.length → X) → ℝ≥0∞ := fun u => jointDens P (modelVals (consts obs) Q P dr (ext u))
  have hmv : Measurable (modelVals (consts obs) Q P dr) := modelVals_measurable obs hdr
  have hf : Measurable f := hjm.comp (hmv.comp hext)
  have himg : (Finset.univ : Finset (Fin Q.length)).image Fin.val = Finset.range Q.length := by
    ext k
    simp only [Finset.mem_image, Finset.mem_univ, true_and, Finset.mem_range]
    exact ⟨fun ⟨j, hj⟩ => hj ▸ j.2, fun h => ⟨⟨k, h⟩, rfl⟩⟩
  have hlat : (Finset.univ : Finset (Fin Q.length)).image e =
      (Finset.range P.length).filter (fun i => obsAt P obs i = none) := by
    ext i
    simp only [Finset.mem_image, Finset.mem_univ, true_and, Finset.mem_filter, Finset.mem_range]
    constructor
    · rintro ⟨j, rfl⟩
      refine ⟨(List.getElem?_eq_some_iff.1 (he j)).1, ?_⟩
      simp only [obsAt, he j, Option.bind_some, hne j, hunobs]
    · rintro ⟨hi, ho⟩
      have hd := List.getElem?_eq_getElem hi
      simp only [obsAt, hd, Option.bind_some] at ho
      obtain ⟨d, hdQ, hn⟩ := List.mem_map.1 ((hcov (P[i]).name).2
        ⟨List.mem_map.2 ⟨_, List.getElem_mem hi, rfl⟩, ho⟩)
      obtain ⟨j, hj⟩ := List.get_of_mem hdQ
      refine ⟨j, hPinj _ _ _ _ (he j) hd ?_⟩
      rw [hne j, hj, hn]
  have hL : (∫⋯∫⁻_(Finset.range Q.length), (fun w => jointDens P (modelVals (consts obs) Q P dr w))
      ∂(baseOf μ Q)) w0 = (∫⋯∫⁻_(Finset.range Q.length), f ∘ (fun x j => x (Fin.val j))
      ∂(baseOf μ Q)) w0 := by
    unfold lmarginal
    refine lintegral_congr (fun y => ?_)
    simp only [Function.comp_apply, f]
    congr 2
    funext k
    simp only [ext]
    split
    · rfl
    · rename_i hk
      rw [Function.updateFinset, dif_neg (by simpa using hk)]
  have hR : evidence μ P obs x0 = (∫⋯∫⁻_((Finset.range P.length).filter
      (fun i => obsAt P obs i = none)), f ∘ (fun x j => x (e j)) ∂(baseOf μ P))
      (fun i => (obsAt P obs i).getD x0) := by
    unfold evidence lmarginal
    refine lintegral_congr (fun y => ?_)
    simp only [Function.comp_apply, f]
    refine jointDens_congr hP (fun i hi => ?_)
    have hd := List.getElem?_eq_getElem hi
    simp only [modelVals, hd, consts_get?]
    cases ho : obs.get? (P[i]).name with
    | some x =>
      simp only [Option.map_some, eval, constEv]
      have hoa : obsAt P obs i = some x := by simp only [obsAt, hd, Option.bind_some, ho]
      rw [Function.updateFinset, dif_neg (by simp [hoa])]
      simp [hoa]
    | none =>
      simp only [Option.map_none]
      have hmem : i ∈ (Finset.univ : Finset (Fin Q.length)).image e := by
        rw [hlat]
        simp [hi, obsAt, hd, ho]
      obtain ⟨j, _, rfl⟩ := Finset.mem_image.1 hmem
      have hn : (P[e j]).name = (Q.get j).name := by
        have := he j
        rw [hd] at this
        rw [Option.some.inj this]
        exact hne j
      rw [hn, hfind j]
      simp only [ext, j.2, dif_pos]
  rw [hL, hR]
  have h1 := lmarginal_image (μ := baseOf μ Q) Fin.val_injective (Finset.univ : Finset (Fin Q.length))
    (f := f) hf w0
  rw [himg] at h1
  have h2 := lmarginal_image (μ := baseOf μ P) heinj (Finset.univ : Finset (Fin Q.length))
    (f := f) hf (fun i => (obsAt P obs i).getD x0)
  rw [hlat] at h2
  have hbase : (fun j : Fin Q.length => baseOf μ Q j) = fun j => baseOf μ P (e j) := by
    funext j
    simp only [baseOf, he j, hne j]
    rw [List.getElem?_eq_getElem j.2]
    rfl
  refine h1.trans (Eq.trans ?_ h2.symm)
  rw [lmarginal_univ, lmarginal_univ]
  exact congrArg (fun ν : (j : Fin Q.length) → Measure X => ∫⁻ u, f u ∂(Measure.pi ν)) hbase


/-! ### The bound -/

theorem exp_sub_log (p q : ℝ≥0∞) : (p.log - q.log).exp = p * q⁻¹ := by
  rw [sub_eq_add_neg, EReal.exp_add, ← ENNReal.log_inv, ENNReal.exp_log, ENNReal.exp_log]

theorem latentLaw_prob (μ : Name → Measure X) [∀ n, SigmaFinite (μ n)] (hQ : WellFormed Q)
    (hmeas : ∀ d ∈ Q, Measurable (fun p : (ℕ → X) × X => d.dens (d.parents.map p.1) p.2))
    (hone : ∀ d ∈ Q, ∀ v : ℕ → X, ∫⁻ x, d.dens (d.parents.map v) x ∂(μ d.name) = 1) (w0 : ℕ → X) :
    IsProbabilityMeasure (latentLaw μ Q w0) := by
  constructor
  have h := lintegral_latentLaw μ hmeas (fun _ => 1) measurable_const w0
  simp only [lintegral_const, one_mul] at h
  rw [h]
  refine C69_program_normalised (baseOf μ Q) Q hQ hmeas (fun i d hd v => ?_) w0
  simp only [baseOf, hd]
  exact hone d (List.mem_of_getElem? hd) v

/-- The variational density is finite almost everywhere. -/
theorem density_finite (μ : Name → Measure X) [∀ n, SigmaFinite (μ n)] (hQ : WellFormed Q)
    (hmeas : ∀ d ∈ Q, Measurable (fun p : (ℕ → X) × X => d.dens (d.parents.map p.1) p.2))
    (hone : ∀ d ∈ Q, ∀ v : ℕ → X, ∫⁻ x, d.dens (d.parents.map v) x ∂(μ d.name) = 1) (w0 : ℕ → X) :
    ∀ᵐ y ∂(Measure.pi (fun i : Finset.range Q.length => baseOf μ Q i)),
      jointDens Q (Function.updateFinset w0 (Finset.range Q.length) y) ≠ ⊤ := by
  have h : (∫⋯∫⁻_(Finset.range Q.length), jointDens Q ∂(baseOf μ Q)) w0 = 1 := by
    refine C69_program_normalised (baseOf μ Q) Q hQ hmeas (fun i d hd v => ?_) w0
    simp only [baseOf, hd]
    exact hone d (List.mem_of_getElem? hd) v
  unfold lmarginal at h
  have := ae_lt_top ((jointDens_measurable Q hmeas).comp measurable_updateFinset)
    (show ∫⁻ y, jointDens Q (Function.updateFinset w0 (Finset.range Q.length) y)
      ∂(Measure.pi (fun i : Finset.range Q.length => baseOf μ Q i)) ≠ ⊤ by rw [h]; simp)
  filter_upwards [this] with y hy
  exact hy.ne

section
variable {obs : Dict Name X}

theorem elbo_exp_measurable (hQ : WellFormed Q) (hP : WellFormed P)
    (hm : m = none ∨ m = some .unset) (hobs : obs.WF) (hdr : ∀ i, Measurable (dr i))
    (hmQ : ∀ d ∈ Q, Measurable (fun p : (ℕ → X) × X => d.dens (d.parents.map p.1) p.2))
    (hmP : ∀ d ∈ P, Measurable (fun p : (ℕ → X) × X => d.dens (d.parents.map p.1) p.2))
    (h : Ran Q P mq m (consts obs) dr v q' l) : Measurable (fun w => (elbo l v w).exp) := by
  have : (fun w => (elbo l v w).exp) = fun w =>
      jointDens P (modelVals (consts obs) Q P dr w) * (jointDens Q w)⁻¹ := by
    funext w
    rw [C70_elbo_value hQ hP hm (consts_wf hobs) h w, exp_sub_log]
  rw [this]
  exact ((jointDens_measurable P hmP).comp (modelVals_measurable obs hdr)).mul
    (jointDens_measurable Q hmQ).inv

/-- **C70.** The expected weight `exp(elbo)` is at most the evidence; it is the evidence if the variational
program can produce every latent value that the model can. -/
theorem C70_weight (μ : Name → Measure X) [∀ n, SigmaFinite (μ n)] (hQ : WellFormed Q)
    (hP : WellFormed P) (hm : m = none ∨ m = some .unset) (hobs : obs.WF)
    (hcov : Covers Q P obs) (hdr : ∀ i, Measurable (dr i))
    (hmQ : ∀ d ∈ Q, Measurable (fun p : (ℕ → X) × X => d.dens (d.parents.map p.1) p.2))
    (hmP : ∀ d ∈ P, Measurable (fun p : (ℕ → X) × X => d.dens (d.parents.map p.1) p.2))
    (hone : ∀ d ∈ Q, ∀ v : ℕ → X, ∫⁻ x, d.dens (d.parents.map v) x ∂(μ d.name) = 1)
    (h : Ran Q P mq m (consts obs) dr v q' l) (w0 : ℕ → X) (x0 : X) :
    ∫⁻ w, (elbo l v w).exp ∂(latentLaw μ Q w0) ≤ evidence μ P obs x0 ∧
    ((∀ w, jointDens Q w = 0 → jointDens P (modelVals (consts obs) Q P dr w) = 0) →
      ∫⁻ w, (elbo l v w).exp ∂(latentLaw μ Q w0) = evidence μ P obs x0) := by
  have hmeas := elbo_exp_measurable hQ hP hm hobs hdr hmQ hmP h
  rw [lintegral_latentLaw μ hmQ _ hmeas w0, ← evidence_eq μ hQ hP obs hcov hmP w0 x0 hdr]
  have hfin := density_finite μ hQ hmQ hone w0
  have hval : ∀ w, (elbo l v w).exp * jointDens Q w =
      jointDens P (modelVals (consts obs) Q P dr w) * (jointDens Q w)⁻¹ * jointDens Q w := by
    intro w
    rw [C70_elbo_value hQ hP hm (consts_wf hobs) h w, exp_sub_log]
  unfold lmarginal
  constructor
  · refine lintegral_mono (fun y => ?_)
    simp only [hval, mul_assoc]
    exact mul_le_of_le_one_right zero_le (ENNReal.inv_mul_le_one _)
  · intro hsupp
    refine lintegral_congr_ae ?_
    filter_upwards [hfin] with y hy
    simp only [hval]
    by_cases h0 : jointDens Q (Function.updateFinset w0 (Finset.range Q.length) y) = 0
    · rw [h0, mul_zero, hsupp _ h0]
    · rw [mul_assoc, ENNReal.inv_mul_cancel h0 hy, mul_one]

/-- **C70.** The expected objective is a lower bound of the log evidence. -/
theorem C70_elbo_bound (μ : Name → Measure X) [∀ n, SigmaFinite (μ n)] (hQ : WellFormed Q)
    (hP : WellFormed P) (hm : m = none ∨ m = some .unset) (hobs : obs.WF)
    (hcov : Covers Q P obs) (hdr : ∀ i, Measurable (dr i))
    (hmQ : ∀ d ∈ Q, Measurable (fun p : (ℕ → X) × X => d.dens (d.parents.map p.1) p.2))
    (hmP : ∀ d ∈ P, Measurable (fun p : (ℕ → X) × X => d.dens (d.parents.map p.1) p.2))
    (hone : ∀ d ∈ Q, ∀ v : ℕ → X, ∫⁻ x, d.dens (d.parents.map v) x ∂(μ d.name) = 1)
    (h : Ran Q P mq m (consts obs) dr v q' l) (w0 : ℕ → X) (x0 : X)
    (hbot : ∀ᵐ w ∂(latentLaw μ Q w0), elbo l v w ≠ ⊥)
    (hint : Integrable (fun w => (elbo l v w).toReal) (latentLaw μ Q w0)) :
    ((∫ w, (elbo l v w).toReal ∂(latentLaw μ Q w0) : ℝ) : EReal) ≤ (evidence μ P obs x0).log := by
  have hprob := latentLaw_prob μ hQ hmQ hone w0
  have hw := (C70_weight μ hQ hP hm hobs hcov hdr hmQ hmP hone h w0 x0).1
  have hmeas := elbo_exp_measurable hQ hP hm hobs hdr hmQ hmP h
  by_cases ht : evidence μ P obs x0 = ⊤
  · rw [ht]; simp
  have hlt : ∫⁻ w, (elbo l v w).exp ∂(latentLaw μ Q w0) ≠ ⊤ := ne_top_of_le_ne_top ht hw
  have hexp : ∀ᵐ w ∂(latentLaw μ Q w0),
      (elbo l v w).exp = ENNReal.ofReal (Real.exp (elbo l v w).toReal) := by
    filter_upwards [hbot, ae_lt_top hmeas hlt] with w h1 h2
    have h3 : elbo l v w ≠ ⊤ := by
      intro hc; rw [hc] at h2; simp at h2
    conv_lhs => rw [← EReal.coe_toReal h3 h1]
    rfl
  have hI : Integrable (fun w => Real.exp (elbo l v w).toReal) (latentLaw μ Q w0) := by
    refine ⟨(Real.continuous_exp.measurable.comp_aemeasurable hint.aemeasurable).aestronglyMeasurable, ?_⟩
    rw [hasFiniteIntegral_iff_ofReal (Filter.Eventually.of_forall (fun _ => (Real.exp_pos _).le)),
      ← lintegral_congr_ae hexp]
    exact hlt.lt_top
  have hJ : Real.exp (∫ w, (elbo l v w).toReal ∂(latentLaw μ Q w0)) ≤
      ∫ w, Real.exp (elbo l v w).toReal ∂(latentLaw μ Q w0) :=
    convexOn_exp.map_integral_le Real.continuous_exp.continuousOn isClosed_univ
      (Filter.Eventually.of_forall (fun _ => Set.mem_univ _)) hint hI
  have hE : ENNReal.ofReal (Real.exp (∫ w, (elbo l v w).toReal ∂(latentLaw μ Q w0))) ≤
      evidence μ P obs x0 := by
    refine (ENNReal.ofReal_le_ofReal hJ).trans (le_trans (le_of_eq ?_) hw)
    rw [ofReal_integral_eq_lintegral_ofReal hI
      (Filter.Eventually.of_forall (fun _ => (Real.exp_pos _).le)), ← lintegral_congr_ae hexp]
  have := ENNReal.log_monotone hE
  rwa [ENNReal.log_ofReal_of_pos (Real.exp_pos _), Real.log_exp] at this

omit [MeasurableSpace X] in
/-- **C70.** If the variational program is the posterior, that is, if the model's joint density is the
variational density times a constant `c`, the objective is `log c` whatever is sampled. -/
theorem C70_posterior_exact (hQ : WellFormed Q) (hP : WellFormed P) (hm : m = none ∨ m = some .unset)
    (ho : observed.WF) (h : Ran Q P mq m observed dr v q' l) (c : ℝ≥0∞) (w : ℕ → X)
    (hpost : jointDens P (modelVals observed Q P dr w) = c * jointDens Q w)
    (h0 : jointDens Q w ≠ 0) (ht : jointDens Q w ≠ ⊤) : elbo l v w = c.log := by
  rw [C70_elbo_value hQ hP hm ho h w, hpost, sub_eq_add_neg, ← ENNReal.log_inv, ← ENNReal.log_mul_add,
    mul_assoc, ENNReal.mul_inv_cancel h0 ht, mul_one]

end

end

/-! ### A concrete objective -/

/-- The posterior of the coin `z` given that its noisy copy came up `true`. -/
noncomputable def coinGuess : List (Decl Bool) := [⟨"z", [], fun _ z => if z then 3 / 4 else 1 / 4⟩]

theorem coinGuess_wf : WellFormed coinGuess := by
  refine ⟨by simp [coinGuess], fun i d hd p hp => ?_⟩
  match i with
  | 0 => simp [coinGuess] at hd; subst hd; simp at hp
  | n + 1 => simp [coinGuess] at hd

theorem coinGuess_meas : ∀ d ∈ coinGuess,
    Measurable (fun p : (ℕ → Bool) × Bool => d.dens (d.parents.map p.1) p.2) := by
  intro d hd
  simp only [coinGuess, List.mem_singleton] at hd
  subst hd
  have h : Measurable (fun z : Bool => if z then (3 / 4 : ℝ≥0∞) else 1 / 4) := Measurable.of_discrete
  exact h.comp (f := fun a : (ℕ → Bool) × Bool => a.2) measurable_snd

theorem coinGuess_one : ∀ d ∈ coinGuess, ∀ v : ℕ → Bool,
    ∫⁻ x, d.dens (d.parents.map v) x ∂(Measure.count : Measure Bool) = 1 := by
  intro d hd v
  simp only [coinGuess, List.mem_singleton] at hd
  subst hd
  rw [lintegral_count, tsum_bool]
  simp only [Bool.false_eq_true, if_false, if_true]
  rw [ENNReal.div_add_div_same]
  norm_num
  exact ENNReal.div_self (by simp) (by simp)

theorem coin_covers : Covers coinGuess coins [("x", true)] := by
  intro n
  simp only [coinGuess, coins, List.map_cons, List.map_nil, List.mem_cons, List.not_mem_nil, or_false,
    Dict.get?]
  constructor
  · rintro rfl; simp
  · rintro ⟨rfl | rfl, h⟩
    · rfl
    · simp at h

theorem coin_post (dr : ℕ → (ℕ → Bool) → Bool) (w : ℕ → Bool) :
    jointDens coins (modelVals (consts [("x", true)]) coinGuess coins dr w) =
      1 / 2 * jointDens coinGuess w ∧ jointDens coinGuess w ≠ 0 ∧ jointDens coinGuess w ≠ ⊤ := by
  have h2 : ∀ (a b : Decl Bool) (x : ℕ → Bool), jointDens [a, b] x =
      a.dens (a.parents.map x) (x 0) * b.dens (b.parents.map x) (x 1) := by
    intro a b x
    simp [jointDens, Fin.prod_univ_succ]
  have h1 : ∀ (a : Decl Bool) (x : ℕ → Bool), jointDens [a] x = a.dens (a.parents.map x) (x 0) := by
    intro a x
    simp [jointDens]
  have e0 : modelVals (consts [("x", true)]) coinGuess coins dr w 0 = w 0 := by
    simp [modelVals, consts, coins, coinGuess, Dict.get?, List.findIdx?_cons]
  have e1 : modelVals (consts [("x", true)]) coinGuess coins dr w 1 = true := by
    simp [modelVals, consts, coins, Dict.get?, eval]
  generalize hx : modelVals (consts [("x", true)]) coinGuess coins dr w = x at e0 e1
  have hq : jointDens coinGuess w = if w 0 then 3 / 4 else 1 / 4 := by rw [coinGuess, h1]
  have hp : jointDens coins x = 1 / 2 * if w 0 then 3 / 4 else 1 / 4 := by
    rw [coins, h2]
    simp [e0, e1]
  refine ⟨by rw [hp, hq], ?_, ?_⟩ <;> rw [hq] <;> cases w 0 <;> simp [ENNReal.div_eq_top]

/-- The hypotheses of the theorems above hold for it; the expected objective and the log evidence are both
`log (1/2)`. -/
example (w0 : ℕ → Bool) : ∃ v q' l, Ran coinGuess coins none (some .unset) (consts [("x", true)])
      (fun i w => w i) v q' l ∧
    (∫⁻ w, (elbo l v w).exp ∂(latentLaw (fun _ => Measure.count) coinGuess w0) =
      evidence (fun _ => Measure.count) coins [("x", true)] true) ∧
    ((∫ w, (elbo l v w).toReal ∂(latentLaw (fun _ => Measure.count) coinGuess w0) : ℝ) : EReal) ≤
      (evidence (fun _ => Measure.count) coins [("x", true)] true).log ∧
    ∀ w, elbo l v w = (1 / 2 : ℝ≥0∞).log := by
  obtain ⟨v, q', l, h⟩ := C70_runs coinGuess coins coinGuess_wf coins_wf none (some .unset)
    (Or.inr rfl) (consts [("x", true)]) (fun i w => w i)
  have hwf : Dict.WF [(("x" : Name), true)] := by simp [Dict.WF, Dict.keys]
  have hel : ∀ w, elbo l v w = (1 / 2 : ℝ≥0∞).log := fun w =>
    let ⟨a, b, c⟩ := coin_post (fun i w => w i) w
    C70_posterior_exact coinGuess_wf coins_wf (Or.inr rfl) (consts_wf hwf) h (1 / 2) w a b c
  have hfin : (1 / 2 : ℝ≥0∞).log ≠ ⊥ := by simp
  have hprob := latentLaw_prob (fun _ => Measure.count) coinGuess_wf coinGuess_meas
    (fun d hd v => coinGuess_one d hd v) w0
  refine ⟨v, q', l, h, ?_, ?_, hel⟩
  · exact (C70_weight (fun _ => Measure.count) coinGuess_wf coins_wf (Or.inr rfl) hwf coin_covers
      (fun i => measurable_pi_apply i) coinGuess_meas coins_meas coinGuess_one h w0 true).2
      (fun w hw => absurd hw (coin_post (fun i w => w i) w).2.1)
  · refine C70_elbo_bound (fun _ => Measure.count) coinGuess_wf coins_wf (Or.inr rfl) hwf coin_covers
      (fun i => measurable_pi_apply i) coinGuess_meas coins_meas coinGuess_one h w0 true ?_ ?_
    · exact Filter.Eventually.of_forall (fun w => by rw [hel w]; exact hfin)
    · simp only [hel]
      exact integrable_const _

end ZhuSuan.VObj
