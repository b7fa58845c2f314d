import Verif.Spec.NetAis
import Verif.Model.NetAis
import Verif.Lemmas.NetAis
import Verif.Props.NetMcmc
import Verif.Props.EndToEnd
import Verif.Props.Ais

/-!
# C79  Annealed importance sampling between two nets estimates the evidence of the model
-/

set_option autoImplicit false

open MeasureTheory Set ProbabilityTheory
open scoped ENNReal

namespace ZhuSuan.BN
open ZhuSuan.VObj

variable {C X : Type} {k : ℕ} {κ : Fin k → Type}

/-! ### The start: samples of the proposal net -/

theorem get_stoch {D L : Type} (s : State (C → X) D L) (f : Fin k → ℕ) (names : Fin k → Name)
    (h : ∀ i, s.nodes.get? (names i) = some (.stoch (f i))) :
    get s (.many ((List.ofFn names).map PyName.str)) = .ok (.nodes ((List.ofFn f).map Ref.stoch)) := by
  have key : ∀ l : List (Fin k), checkAll s.nodes false ((l.map names).map PyName.str) = .ok (l.map names) ∧
      (l.map names).mapM (lookup s.nodes) = .ok ((l.map f).map Ref.stoch) := by
    intro l
    induction l with
    | nil => exact ⟨rfl, rfl⟩
    | cons a l ih =>
      refine ⟨?_, ?_⟩
      · simp only [List.map_cons, checkAll, checkName, h, ih.1]
      · have hl : lookup s.nodes (names a) = .ok (.stoch (f a)) := by simp only [lookup, h]
        simp only [List.map_cons, List.mapM_cons, hl, ih.2]
        rfl
  have e := key (List.finRange k)
  rw [← List.ofFn_eq_map, ← List.ofFn_eq_map] at e
  unfold get
  simp only [checkNames, e.1, e.2]

theorem comprehension_refTensor {V D L : Type} (env : Env V D L) (ids : List ℕ) (s : State V D L) :
    comprehension (refTensor env) s (ids.map Ref.stoch) = comprehension (objTensor env) s ids := by
  induction ids generalizing s with
  | nil => rfl
  | cons a ids ih =>
    simp only [List.map_cons, comprehension, refTensor, ih]

/-- **C79.** The variables are initialised with the samples of the proposal net: the value for the latent
variable `i` is the draw of the statement of that name. -/
theorem C79_prior_samples (dr : ℕ → C → X) (mq : Option (LogJoint (C → EReal))) (Q : List (Decl X))
    (hQ : WellFormed Q) (names : Fin k → Name) (place : Fin k → ℕ)
    (hp : ∀ i, (Q[place i]?).map Decl.name = some (names i)) :
    priorSamples dr mq Q (List.ofFn names) = .ok (List.ofFn fun i c => dr (place i) c) := by
  obtain ⟨h1, h2⟩ := (BuildInv.init (denv (chainEv (C := C) (X := X)) dr) (some []) mq).build
    (fun _ => rfl) (fun _ _ => rfl) [] Q (by simpa using hQ)
  rcases hq : build (denv chainEv dr) (State.init (some []) mq []) Q with ⟨a, s⟩
  rw [hq] at h1 h2
  simp only [List.nil_append] at h1 h2
  subst h1
  have hnamed : ∀ i, s.nodes.get? (names i) = some (.stoch (place i)) := by
    intro i
    obtain ⟨d, hd, hn⟩ := Option.map_eq_some_iff.1 (hp i)
    rw [← hn]
    exact h2.named _ d hd
  have hlt : ∀ p ∈ List.ofFn place, p < Q.length := by
    intro p h
    obtain ⟨i, rfl⟩ := List.mem_ofFn.1 h
    obtain ⟨d, hd, _⟩ := Option.map_eq_some_iff.1 (hp i)
    exact (List.getElem?_eq_some_iff.1 hd).1
  obtain ⟨ts, t1, t2, t3, _⟩ := h2.tensors (fun _ => rfl) (List.ofFn place) hlt
  rcases hc : comprehension (objTensor (denv chainEv dr)) s (List.ofFn place) with ⟨r, S⟩
  rw [hc] at t1 t2 t3
  simp only at t1 t2 t3
  subst t1
  obtain ⟨_, _, _, hval⟩ := build_values t2 (Access.refl _).still t2.inv
  have hmap : ∀ (ps : List ℕ) (us : List (Tensor (C → X))), List.Forall₂ (HasValue S) ps us →
      (us.map fun t c => eval chainEv dr c t) = ps.map fun p c => dr p c := by
    intro ps us hF
    induction hF with
    | nil => rfl
    | @cons p t _ _ hx _ ih =>
      simp only [List.map_cons, ih, List.cons.injEq, and_true]
      funext c
      rw [hval _ _ hx c]
      simp only [nodeVal, obsOf, Option.bind_some]
      cases Q[p]? <;> rfl
  simp only [priorSamples, observe, hq, get_stoch s place names hnamed, comprehension_refTensor, hc,
    hmap _ _ t3]
  rw [List.map_ofFn]
  rfl


/-! ### The numbers -/

theorem place_unique {prog : List (Decl X)} (hwf : WellFormed prog) {i l : ℕ} {d d' : Decl X}
    (h3 : prog[i]? = some d) (h4 : prog[l]? = some d') (h5 : d.name = d'.name) : i = l := by
  obtain ⟨b1, c1⟩ := List.getElem?_eq_some_iff.1 h3
  obtain ⟨b2, c2⟩ := List.getElem?_eq_some_iff.1 h4
  have := (List.nodup_iff_injective_getElem.1 hwf.1)
    (a₁ := ⟨i, by simpa using b1⟩) (a₂ := ⟨l, by simpa using b2⟩) (by simp [c1, c2, h5])
  simpa using this

/-- The joint density with the latent variables in their places is the posterior density. -/
theorem jointDens_placed (prog : List (Decl X)) (hwf : WellFormed prog) (names : Fin k → Name)
    (hn : Function.Injective names) (mk : (i : Fin k) → (κ i → ℝ) → X) (S : Finset ℕ) (e : Fin k ≃ S)
    (he : ∀ j, ∃ d, prog[(e j : ℕ)]? = some d ∧ d.name = names j) (observed : Dict Name X)
    (hno : ∀ j, observed.get? (names j) = none) (b : ℕ → X)
    (hb : ∀ i d, prog[i]? = some d → i ∉ S → observed.get? d.name = some (b i)) (x0 : ℕ → X)
    (q : (Σ i, κ i) → ℝ) :
    jointDens prog (Function.updateFinset b S fun s => mk (e.symm s) fun j => q ⟨e.symm s, j⟩) =
      posteriorDens prog names mk observed x0 q := by
  refine jointDens_congr hwf fun i hi => ?_
  have hd := List.getElem?_eq_getElem hi
  by_cases hS : i ∈ S
  · obtain ⟨j, hj⟩ := e.surjective ⟨i, hS⟩
    obtain ⟨d, h1, h2⟩ := he j
    rw [hj] at h1
    have h1 : prog[i]? = some d := h1
    rw [Function.updateFinset, dif_pos hS, placed, h1]
    simp only [h2, hno j, latentDict_get? names hn mk q j]
    have h3 : ∀ i', i' = j → (mk i' fun l => q ⟨i', l⟩) = mk j fun l => q ⟨j, l⟩ := by rintro _ rfl; rfl
    exact h3 _ (by rw [← hj, Equiv.symm_apply_apply])
  · rw [Function.updateFinset, dif_neg hS, placed, hd]
    simp only [hb i _ hd hS]

section
variable [MeasurableSpace X] [∀ i, Fintype (κ i)]

/-- **C79.** The numbers in the samples of the proposal net have the density of the net. -/
theorem C79_proposal_law (μ : Name → Measure X) [∀ n, SigmaFinite (μ n)] (Q : List (Decl X)) (hQ : WellFormed Q)
    (hmeas : ∀ d ∈ Q, Measurable (fun p : (ℕ → X) × X => d.dens (d.parents.map p.1) p.2))
    (names : Fin k → Name) (hn : Function.Injective names)
    (mk : (i : Fin k) → (κ i → ℝ) → X) (hmk : ∀ i, Measurable (mk i))
    (un : (i : Fin k) → X → κ i → ℝ) (hun : ∀ i, Measurable (un i)) (hinv : ∀ i v, un i (mk i v) = v)
    (hnum : OnNumbers μ names mk) (hlat : ∀ n, n ∈ Q.map Decl.name ↔ ∃ i, names i = n)
    (place : Fin k → ℕ) (hp : ∀ i, (Q[place i]?).map Decl.name = some (names i))
    (observed : Dict Name X) (hno : ∀ i, observed.get? (names i) = none) (w0 x0 : ℕ → X) :
    (latentLaw μ Q w0).map (fun w (p : Σ i, κ i) => un p.1 (w (place p.1)) p.2) =
      volume.withDensity (posteriorDens Q names mk observed x0) := by
  obtain ⟨e, he⟩ := place_equiv Q hQ names hn (Finset.range Q.length)
    (fun i hi => by
      have hi := Finset.mem_range.1 hi
      exact ⟨Q[i], List.getElem?_eq_getElem hi,
        (hlat _).1 (List.mem_map.2 ⟨_, List.getElem_mem hi, rfl⟩)⟩)
    (fun j => by
      obtain ⟨d, hd, hdn⟩ := Option.map_eq_some_iff.1 (hp j)
      exact ⟨place j, Finset.mem_range.2 (List.getElem?_eq_some_iff.1 hd).1, d, hd, hdn⟩)
  have hpe : ∀ j, place j = e j := by
    intro j
    obtain ⟨d, hd, hdn⟩ := Option.map_eq_some_iff.1 (hp j)
    obtain ⟨d', hd', hdn'⟩ := he j
    exact place_unique hQ hd hd' (by rw [hdn, hdn'])
  have mnum : Measurable fun (w : ℕ → X) (p : Σ i, κ i) => un p.1 (w (place p.1)) p.2 :=
    measurable_pi_iff.2 fun p => (measurable_pi_apply p.2).comp ((hun p.1).comp (measurable_pi_apply _))
  refine Measure.ext_of_lintegral _ fun g hg => ?_
  have hj := jointDens_measurable Q hmeas
  have hpost := measurable_posteriorDens Q hmeas names mk hmk observed x0
  rw [lintegral_map hg mnum, lintegral_latentLaw μ hmeas
      (fun w => g fun p => un p.1 (w (place p.1)) p.2) (hg.comp mnum) w0,
    lintegral_withDensity_eq_lintegral_mul _ hpost hg, lmarginal]
  have hbase : ∀ i, baseOf μ Q (e i : ℕ) = (volume : Measure (κ i → ℝ)).map (mk i) := by
    intro i
    obtain ⟨d, hd, hdn⟩ := he i
    simp only [baseOf, hd, hdn]
    exact hnum i
  rw [lintegral_flat e (fun s : Finset.range Q.length => baseOf μ Q s) mk hmk hbase
    (fun y => g (fun p => un p.1 (Function.updateFinset w0 (Finset.range Q.length) y (place p.1)) p.2) *
      jointDens Q (Function.updateFinset w0 (Finset.range Q.length) y))
    (((hg.comp mnum).mul hj).comp measurable_updateFinset)]
  refine lintegral_congr fun q => ?_
  rw [Pi.mul_apply, mul_comm, jointDens_placed Q hQ names hn mk _ e he observed hno w0 (fun i d hd hi =>
    absurd (Finset.mem_range.2 (List.getElem?_eq_some_iff.1 hd).1) hi) x0 q]
  congr 2
  funext p
  obtain ⟨i, j⟩ := p
  have hS : place i ∈ Finset.range Q.length := by rw [hpe]; exact (e i).2
  rw [Function.updateFinset, dif_pos hS]
  have h3 : ∀ i', i' = i → un i (mk i' fun l => q ⟨i', l⟩) j = q ⟨i, j⟩ := by
    rintro _ rfl; rw [hinv]
  exact h3 _ (by rw [Equiv.symm_apply_eq]; exact Subtype.ext (hpe i))

/-- **C79.** The integral of the posterior density over the numbers is the evidence of the model. -/
theorem C79_evidence (μ : Name → Measure X) [∀ n, SigmaFinite (μ n)] (P : List (Decl X)) (hP : WellFormed P)
    (hmeas : ∀ d ∈ P, Measurable (fun p : (ℕ → X) × X => d.dens (d.parents.map p.1) p.2))
    (names : Fin k → Name) (hn : Function.Injective names)
    (mk : (i : Fin k) → (κ i → ℝ) → X) (hmk : ∀ i, Measurable (mk i)) (hnum : OnNumbers μ names mk)
    (observed : Dict Name X)
    (hlat : ∀ n, (n ∈ P.map Decl.name ∧ observed.get? n = none) ↔ ∃ i, names i = n) (x0 : ℕ → X) (x1 : X) :
    ∫⁻ q, posteriorDens P names mk observed x0 q = evidence μ P observed x1 := by
  have hobs : ∀ i d, P[i]? = some d → obsAt P observed i = observed.get? d.name := by
    intro i d hd
    simp only [obsAt, hd, Option.bind_some]
  obtain ⟨e, he⟩ := place_equiv P hP names hn
    ((Finset.range P.length).filter (fun i => obsAt P observed i = none))
    (fun i hi => by
      obtain ⟨hi, ho⟩ := Finset.mem_filter.1 hi
      have hi := Finset.mem_range.1 hi
      have hd := List.getElem?_eq_getElem hi
      rw [hobs i _ hd] at ho
      exact ⟨P[i], hd, (hlat _).1 ⟨List.mem_map.2 ⟨_, List.getElem_mem hi, rfl⟩, ho⟩⟩)
    (fun j => by
      obtain ⟨h1, h2⟩ := (hlat (names j)).2 ⟨j, rfl⟩
      obtain ⟨d, hd, hdn⟩ := List.mem_map.1 h1
      obtain ⟨i, hi⟩ := List.mem_iff_getElem?.1 hd
      refine ⟨i, Finset.mem_filter.2 ⟨Finset.mem_range.2 (List.getElem?_eq_some_iff.1 hi).1, ?_⟩, d, hi, hdn⟩
      rw [hobs i d hi, hdn, h2])
  have hbase : ∀ i, baseOf μ P (e i : ℕ) = (volume : Measure (κ i → ℝ)).map (mk i) := by
    intro i
    obtain ⟨d, hd, hdn⟩ := he i
    simp only [baseOf, hd, hdn]
    exact hnum i
  rw [evidence, lmarginal, lintegral_flat e (fun s => baseOf μ P (s : ℕ)) mk hmk hbase
    (fun y => jointDens P (Function.updateFinset (fun i => (obsAt P observed i).getD x1) _ y))
    ((jointDens_measurable P hmeas).comp measurable_updateFinset)]
  refine lintegral_congr fun q => ?_
  refine (jointDens_placed P hP names hn mk _ e he observed (fun j => ((hlat (names j)).2 ⟨j, rfl⟩).2) _
    (fun i d hd hi => ?_) x0 q).symm
  have hi' : obsAt P observed i ≠ none := fun h => hi (Finset.mem_filter.2
    ⟨Finset.mem_range.2 (List.getElem?_eq_some_iff.1 hd).1, h⟩)
  rw [hobs i d hd] at hi' ⊢
  cases h : observed.get? d.name with
  | none => exact absurd h hi'
  | some v => rfl

end

/-! ### The density before annealing -/

/-- The log joint of a net only depends on what is observed for each name. -/
theorem netLogJoint_congr (dr : ℕ → C → X) (m : Option (LogJoint (C → EReal))) (hm : m = none ∨ m = some .unset)
    (prog : List (Decl X)) (hwf : WellFormed prog) (obs obs' : Dict Name (C → X))
    (h : ∀ n, obs.get? n = obs'.get? n) : netLogJoint dr m prog obs = netLogJoint dr m prog obs' := by
  obtain ⟨s, l, s', h1, h2, h3⟩ := C69_program chainEv dr (some (obs.map fun e => (e.1, some e.2))) m prog hm hwf
  obtain ⟨t, l', t', g1, g2, g3⟩ := C69_program chainEv dr (some (obs'.map fun e => (e.1, some e.2))) m prog hm hwf
  have e : l = l' := by
    funext c
    rw [h3, g3]
    congr 2
    funext i
    unfold nodeVal
    have hn : ∀ n, obsOf (some (obs.map fun e => (e.1, some e.2))) n =
        obsOf (some (obs'.map fun e => (e.1, some e.2))) n := by
      intro n
      simp only [obsOf, Option.bind_some]
      rw [get?_map (fun v : C → X => some v), get?_map (fun v : C → X => some v), h]
    simp only [hn]
  simp only [netLogJoint, observe, h1, h2, g1, g2, e]

theorem valObs_get? (names : List Name) (hn : names.Nodup) (values : List (C → X)) (observed : Dict Name (C → X))
    (ho : observed.WF) (n : Name) :
    (valObs names values observed).get? n = (Dict.get? (names.zip values) n).or (observed.get? n) := by
  have hz : Dict.WF (names.zip values) := by
    have : Dict.keys (names.zip values) = names.take values.length := by
      simp only [Dict.keys]
      clear hn
      induction names generalizing values with
      | nil => simp
      | cons a l ih => cases values <;> simp [ih]
    rw [Dict.WF, this]
    exact hn.sublist (List.take_sublist _ _)
  have hu : (Dict.update [] (names.zip values)).WF := Dict.update_wf (by simp [Dict.WF, Dict.keys]) _
  simp only [valObs, Dict.mergeDicts, List.foldl]
  rw [Dict.get?_update hu, Dict.get?_update hz, Dict.get?_update ho]
  simp [Dict.get?]

/-- When no name is both observed and latent, the two ways of merging agree. -/
theorem netLogJoint_valObs (dr : ℕ → C → X) (m : Option (LogJoint (C → EReal))) (hm : m = none ∨ m = some .unset)
    (prog : List (Decl X)) (hwf : WellFormed prog) (names : Fin k → Name) (hn : Function.Injective names)
    (values : List (C → X)) (observed : Dict Name (C → X)) (ho : observed.WF)
    (hno : ∀ i, observed.get? (names i) = none) :
    netLogJoint dr m prog (valObs (List.ofFn names) values observed) =
      getLogPosterior dr m prog (List.ofFn names) observed values := by
  refine netLogJoint_congr dr m hm prog hwf _ _ fun n => ?_
  rw [valObs_get? _ (List.nodup_ofFn.2 hn) _ _ ho, Hmc.C57_joint (List.ofFn names) (List.nodup_ofFn.2 hn) _ _ ho]
  cases h : observed.get? n with
  | none => simp
  | some v =>
    have : Dict.get? ((List.ofFn names).zip values) n = none := by
      rw [Dict.get?_eq_none_iff]
      intro hk
      have : n ∈ List.ofFn names := by
        simp only [Dict.keys, List.mem_map, Prod.exists, exists_and_right, exists_eq_right] at hk
        obtain ⟨x, hx⟩ := hk
        exact (List.of_mem_zip hx).1
      obtain ⟨i, rfl⟩ := List.mem_ofFn.1 this
      rw [hno i] at h
      cases h
    simp [this]

/-! ### The estimate -/

section
variable [MeasurableSpace X] [∀ i, Fintype (κ i)] [Fintype C] [Nonempty C]

omit [Fintype C] in
/-- What AIS sees of two nets: a log density for each chain and the numbers of a sample of the proposal. -/
theorem ais_reduce (μ : Name → Measure X) [∀ n, SigmaFinite (μ n)]
    (Q P : List (Decl X)) (hQ : WellFormed Q) (hP : WellFormed P)
    (mq m : Option (LogJoint (C → EReal))) (hmq : mq = none ∨ mq = some .unset) (hm : m = none ∨ m = some .unset)
    (hmQ : ∀ d ∈ Q, Measurable (fun p : (ℕ → X) × X => d.dens (d.parents.map p.1) p.2))
    (hmP : ∀ d ∈ P, Measurable (fun p : (ℕ → X) × X => d.dens (d.parents.map p.1) p.2))
    (hone : ∀ d ∈ Q, ∀ v : ℕ → X, ∫⁻ x, d.dens (d.parents.map v) x ∂(μ d.name) = 1)
    (names : Fin k → Name) (hn : Function.Injective names)
    (hlat : ∀ n, n ∈ Q.map Decl.name ↔ ∃ i, names i = n)
    (mk : (i : Fin k) → (κ i → ℝ) → X) (hmk : ∀ i, Measurable (mk i))
    (un : (i : Fin k) → X → κ i → ℝ) (hun : ∀ i, Measurable (un i)) (hinv : ∀ i v, un i (mk i v) = v)
    (hnum : OnNumbers μ names mk)
    (observed : Dict Name (C → X)) (ho : observed.WF) (hcov : ∀ c, Covers Q P (atChain observed c))
    (logPrior logJoint valPrior valJoint : (C → (Σ i, κ i) → ℝ) → C → ℝ)
    (h1 : ∀ q, ∃ dr l, getLogPosterior dr mq Q (List.ofFn names) observed (latentTensors mk q) = .ok l ∧
      ∀ c, l c = (logPrior q c : EReal))
    (h2 : ∀ q, ∃ dr l, getLogPosterior dr m P (List.ofFn names) observed (latentTensors mk q) = .ok l ∧
      ∀ c, l c = (logJoint q c : EReal))
    (h3 : ∀ q, ∃ dr l, netLogJoint dr mq Q (valObs (List.ofFn names) (latentTensors mk q) observed) = .ok l ∧
      ∀ c, l c = (valPrior q c : EReal))
    (h4 : ∀ q, ∃ dr l, netLogJoint dr m P (valObs (List.ofFn names) (latentTensors mk q) observed) = .ok l ∧
      ∀ c, l c = (valJoint q c : EReal))
    (w0 : ℕ → X) (x0 : X) :
    ∃ (lq lp : C → ((Σ i, κ i) → ℝ) → ℝ) (num : (ℕ → X) → (Σ i, κ i) → ℝ),
      (∀ c, Measurable (lq c)) ∧ (∀ c, Measurable (lp c)) ∧ Measurable num ∧
      (logPrior = fun q c => lq c (q c)) ∧ (logJoint = fun q c => lp c (q c)) ∧
      valPrior = logPrior ∧ valJoint = logJoint ∧
      (∀ w (s : Hmc.State ℝ C (Σ i, κ i)),
        initLatent un mq Q (List.ofFn names) w s = { s with q := fun c => num (w c) }) ∧
      (∀ c, (latentLaw μ Q w0).map num = volume.withDensity fun q => ENNReal.ofReal (Real.exp (lq c q))) ∧
      (∀ c, ∫⁻ q, ENNReal.ofReal (Real.exp (lq c q)) = 1) ∧
      (∀ c, ∫⁻ q, ENNReal.ofReal (Real.exp (lp c q)) = evidence μ P (atChain observed c) x0) ∧
      (∀ c q, lq c q = Real.log (posteriorDens Q names mk (atChain observed c) (fun _ => x0) q).toReal) ∧
      (∀ c q, lp c q = Real.log (posteriorDens P names mk (atChain observed c) (fun _ => x0) q).toReal) := by
  set x0' : ℕ → X := fun _ => x0
  -- names
  have hget : ∀ (c : C) (n : Name), (atChain observed c).get? n = none ↔ observed.get? n = none := by
    intro c n
    rw [atChain, get?_map (fun v : C → X => v c)]
    simp
  obtain ⟨c0⟩ := ‹Nonempty C›
  have hno : ∀ i, observed.get? (names i) = none := fun i =>
    (hget c0 _).1 ((hcov c0 _).1 ((hlat _).2 ⟨i, rfl⟩)).2
  have hcQ : Complete Q names observed := fun d hd =>
    Or.inr ((hlat _).1 (List.mem_map.2 ⟨d, hd, rfl⟩))
  have hcP : Complete P names observed := fun d hd => by
    cases h : observed.get? d.name with
    | some v => exact Or.inl rfl
    | none =>
      exact Or.inr ((hlat _).1 ((hcov c0 _).2 ⟨List.mem_map.2 ⟨d, hd, rfl⟩, (hget c0 _).2 h⟩))
  -- densities
  obtain ⟨lq, mlq, elq, dlq⟩ := logPosterior_split mq hmq Q hQ hmQ names hn mk hmk observed ho hcQ x0' logPrior h1
  obtain ⟨lp, mlp, elp, dlp⟩ := logPosterior_split m hm P hP hmP names hn mk hmk observed ho hcP x0' logJoint h2
  have e3 : valPrior = logPrior := by
    obtain ⟨lq', _, e, d⟩ := logPosterior_split mq hmq Q hQ hmQ names hn mk hmk observed ho hcQ x0' valPrior (by
      intro q
      obtain ⟨dr, l, a, b⟩ := h3 q
      rw [netLogJoint_valObs dr mq hmq Q hQ names hn _ observed ho hno] at a
      exact ⟨dr, l, a, b⟩)
    rw [e, elq]
    funext q c
    refine Real.exp_injective ?_
    rw [← ENNReal.toReal_ofReal (Real.exp_pos _).le, d, ← dlq, ENNReal.toReal_ofReal (Real.exp_pos _).le]
  have e4 : valJoint = logJoint := by
    obtain ⟨lp', _, e, d⟩ := logPosterior_split m hm P hP hmP names hn mk hmk observed ho hcP x0' valJoint (by
      intro q
      obtain ⟨dr, l, a, b⟩ := h4 q
      rw [netLogJoint_valObs dr m hm P hP names hn _ observed ho hno] at a
      exact ⟨dr, l, a, b⟩)
    rw [e, elp]
    funext q c
    refine Real.exp_injective ?_
    rw [← ENNReal.toReal_ofReal (Real.exp_pos _).le, d, ← dlp, ENNReal.toReal_ofReal (Real.exp_pos _).le]
  -- samples of the proposal
  have hplace : ∀ i, ∃ p : ℕ, (Q[p]?).map Decl.name = some (names i) := by
    intro i
    obtain ⟨d, hd, hdn⟩ := List.mem_map.1 ((hlat _).2 ⟨i, rfl⟩)
    obtain ⟨p, hp⟩ := List.mem_iff_getElem?.1 hd
    exact ⟨p, by rw [hp, Option.map_some, hdn]⟩
  choose place hp using hplace
  set num : (ℕ → X) → (Σ i, κ i) → ℝ := fun w p => un p.1 (w (place p.1)) p.2 with hnumdef
  have mnum : Measurable num :=
    measurable_pi_iff.2 fun p => (measurable_pi_apply p.2).comp ((hun p.1).comp (measurable_pi_apply _))
  have hinit : ∀ w s, initLatent un mq Q (List.ofFn names) w s = { s with q := fun c => num (w c) } := by
    intro w s
    simp only [initLatent, C79_prior_samples (fun obj c => w c obj) mq Q hQ names place hp]
    congr 1
    funext c p
    simp [numbersOf, hnumdef]
  have hlaw : ∀ c, (latentLaw μ Q w0).map num =
      volume.withDensity fun q => ENNReal.ofReal (Real.exp (lq c q)) := by
    intro c
    simp only [dlq]
    exact C79_proposal_law μ Q hQ hmQ names hn mk hmk un hun hinv hnum hlat place hp _
      (fun i => (hget c _).2 (hno i)) w0 x0'
  have hprob := latentLaw_prob μ hQ hmQ hone w0
  have hnorm : ∀ c, ∫⁻ q, ENNReal.ofReal (Real.exp (lq c q)) = 1 := by
    intro c
    have h : (latentLaw μ Q w0).map num univ =
        (volume.withDensity fun q => ENNReal.ofReal (Real.exp (lq c q))) univ := by rw [hlaw c]
    rw [Measure.map_apply mnum MeasurableSet.univ, preimage_univ, measure_univ,
      withDensity_apply _ MeasurableSet.univ, Measure.restrict_univ] at h
    exact h.symm
  refine ⟨lq, lp, num, mlq, mlp, mnum, elq, elp, e3, e4, hinit, hlaw, hnorm, fun c => ?_, fun c q => ?_, fun c q => ?_⟩
  · simp only [dlp]
    refine C79_evidence μ P hP hmP names hn mk hmk hnum _ (fun n => ?_) x0' x0
    rw [← hlat n]
    exact (hcov c n).symm
  · rw [← dlq, ENNReal.toReal_ofReal (Real.exp_pos _).le, Real.log_exp]
  · rw [← dlp, ENNReal.toReal_ofReal (Real.exp_pos _).le, Real.log_exp]

/-- **C79.** AIS between two nets, with HMC without adaptation.  `Q` is the proposal, whose nodes are the latent
variables; `P` is the model, whose nodes are the latent variables and observed nodes.  `logPrior` and `logJoint`
are what the two nets' log joints evaluate to inside HMC, `valPrior` and `valJoint` what they evaluate to in
`log_fn_val`, all finite.  Then in every chain the expectation of the exponential of the log weight, over the
samples of the proposal net and the noise of HMC, is the evidence of the model given the chain's observations. -/
theorem C79_weight (μ : Name → Measure X) [∀ n, SigmaFinite (μ n)]
    (Q P : List (Decl X)) (hQ : WellFormed Q) (hP : WellFormed P)
    (mq m : Option (LogJoint (C → EReal))) (hmq : mq = none ∨ mq = some .unset) (hm : m = none ∨ m = some .unset)
    (hmQ : ∀ d ∈ Q, Measurable (fun p : (ℕ → X) × X => d.dens (d.parents.map p.1) p.2))
    (hmP : ∀ d ∈ P, Measurable (fun p : (ℕ → X) × X => d.dens (d.parents.map p.1) p.2))
    (hone : ∀ d ∈ Q, ∀ v : ℕ → X, ∫⁻ x, d.dens (d.parents.map v) x ∂(μ d.name) = 1)
    (names : Fin k → Name) (hn : Function.Injective names)
    (hlat : ∀ n, n ∈ Q.map Decl.name ↔ ∃ i, names i = n)
    (mk : (i : Fin k) → (κ i → ℝ) → X) (hmk : ∀ i, Measurable (mk i))
    (un : (i : Fin k) → X → κ i → ℝ) (hun : ∀ i, Measurable (un i)) (hinv : ∀ i v, un i (mk i v) = v)
    (hnum : OnNumbers μ names mk)
    (observed : Dict Name (C → X)) (ho : observed.WF) (hcov : ∀ c, Covers Q P (atChain observed c))
    (logPrior logJoint valPrior valJoint : (C → (Σ i, κ i) → ℝ) → C → ℝ)
    (h1 : ∀ q, ∃ dr l, getLogPosterior dr mq Q (List.ofFn names) observed (latentTensors mk q) = .ok l ∧
      ∀ c, l c = (logPrior q c : EReal))
    (h2 : ∀ q, ∃ dr l, getLogPosterior dr m P (List.ofFn names) observed (latentTensors mk q) = .ok l ∧
      ∀ c, l c = (logJoint q c : EReal))
    (h3 : ∀ q, ∃ dr l, netLogJoint dr mq Q (valObs (List.ofFn names) (latentTensors mk q) observed) = .ok l ∧
      ∀ c, l c = (valPrior q c : EReal))
    (h4 : ∀ q, ∃ dr l, netLogJoint dr m P (valObs (List.ofFn names) (latentTensors mk q) observed) = .ok l ∧
      ∀ c, l c = (valJoint q c : EReal))
    (g : ℝ → C → ((Σ i, κ i) → ℝ) → (Σ i, κ i) → ℝ) (hg : ∀ t c, Measurable (g t c))
    (cfg : Hmc.Cfg ℝ) (hc1 : cfg.adaptsStep = false) (hc2 : cfg.adaptsMass = false) (feed : Hmc.Feed)
    (n nAdapt : ℕ) (hn0 : n ≠ 0) (s : Hmc.State ℝ C (Σ i, κ i)) (draw1 : C → ℕ → X)
    (adaptNoise : Fin nAdapt → (C → (Σ i, κ i) → ℝ) × (C → ℝ)) (w0 : ℕ → X) (x0 : X) :
    let op := Ais.hmcOp cfg feed logPrior logJoint (fun t q c => g t c (q c))
    let proposal : Measure (C → ℕ → X) := Measure.pi fun _ => latentLaw μ Q w0
    let noise : Measure ((C → (Σ i, κ i) → ℝ) × (C → ℝ)) :=
      (Measure.pi fun _ => Measure.pi fun _ => gaussianReal 0 1).prod (Measure.pi fun _ => volume.restrict (Ico 0 1))
    ∃ W : (C → ℕ → X) × (Fin n → (C → (Σ i, κ i) → ℝ) × (C → ℝ)) → C → ℝ, (∀ c, Measurable fun p => W p c) ∧
      (∀ w z, Ais.logWeights op (initLatent un mq Q (List.ofFn names))
        (fun s c => Ais.logFn valPrior valJoint 0 s.q c) n nAdapt s draw1 w adaptNoise z = some (W (w, z))) ∧
      ∀ c, ∫⁻ p, ENNReal.ofReal (Real.exp (W p c)) ∂(proposal.prod (Measure.pi fun _ => noise)) =
        evidence μ P (atChain observed c) x0 := by
  intro op proposal noise
  obtain ⟨lq, lp, num, mlq, mlp, mnum, elq, elp, e3, e4, hinit, hlaw, hnorm, hev, -, -⟩ := ais_reduce μ Q P hQ hP mq m
    hmq hm hmQ hmP hone names hn hlat mk hmk un hun hinv hnum observed ho hcov logPrior logJoint valPrior valJoint
    h1 h2 h3 h4 w0 x0
  have hprob := latentLaw_prob μ hQ hmQ hone w0
  obtain ⟨W, mW, hW, hE⟩ := Ais.C48_hmc cfg hc1 hc2 feed lq lp mlq mlp hnorm g hg n nAdapt hn0 s
    (fun c => num (draw1 c)) adaptNoise
  have mall : Measurable fun p : (C → ℕ → X) × (Fin n → (C → (Σ i, κ i) → ℝ) × (C → ℝ)) =>
      ((fun c => num (p.1 c)), p.2) :=
    (measurable_pi_iff.2 fun c => mnum.comp ((measurable_pi_apply c).comp measurable_fst)).prodMk measurable_snd
  refine ⟨fun p => W (fun c => num (p.1 c), p.2), fun c => (mW c).comp mall, fun w z => ?_, fun c => ?_⟩
  · rw [← hW (fun c => num (w c)) z]
    subst e3 e4
    simp only [op, Ais.logWeights, hinit, elq, elp]
  · have hu : IsProbabilityMeasure (volume.restrict (Ico (0 : ℝ) 1)) := ⟨by simp⟩
    have hs : ∀ _ : C, SigmaFinite ((latentLaw μ Q w0).map num) := fun _ => by
      have := Measure.isProbabilityMeasure_map (μ := latentLaw μ Q w0) mnum.aemeasurable
      infer_instance
    have hpi : (Measure.pi fun c => volume.withDensity fun q => ENNReal.ofReal (Real.exp (lq c q))) =
        proposal.map fun w c => num (w c) := by
      simp only [← hlaw]
      exact (Measure.pi_map_pi (fun _ => mnum.aemeasurable)).symm
    have hprod : (proposal.map fun w c => num (w c)).prod (Measure.pi fun _ : Fin n => noise) =
        (proposal.prod (Measure.pi fun _ : Fin n => noise)).map
          fun p => ((fun c => num (p.1 c)), p.2) := by
      have mn : Measurable fun (w : C → ℕ → X) c => num (w c) :=
        measurable_pi_iff.2 fun c => mnum.comp (measurable_pi_apply c)
      have h := Measure.map_prod_map proposal (Measure.pi fun _ : Fin n => noise) mn measurable_id
      rw [Measure.map_id] at h
      exact h
    have h := hE c
    have mexp : Measurable fun p => ENNReal.ofReal (Real.exp (W p c)) :=
      (Real.measurable_exp.comp (mW c)).ennreal_ofReal
    rw [hpi, hprod, lintegral_map mexp mall] at h
    rw [h]
    exact hev c

omit [Fintype C] [Nonempty C] in
/-- **C79.** The number that `AIS.run` returns is a stochastic lower bound of the mean log evidence of the data
points: the chains are pairs of a chain and a data point, and `logZ d` is the log evidence of data point `d`.  The
expectation of the result is at most their mean, and the value for a data point exceeds its log evidence by `b`
with probability at most `exp (-b)`. -/
theorem C79_lower_bound {K D : Type} [Fintype K] [Nonempty K] [Fintype D] [Nonempty D]
    (μ : Name → Measure X) [∀ n, SigmaFinite (μ n)]
    (Q P : List (Decl X)) (hQ : WellFormed Q) (hP : WellFormed P)
    (mq m : Option (LogJoint ((K × D) → EReal))) (hmq : mq = none ∨ mq = some .unset) (hm : m = none ∨ m = some .unset)
    (hmQ : ∀ d ∈ Q, Measurable (fun p : (ℕ → X) × X => d.dens (d.parents.map p.1) p.2))
    (hmP : ∀ d ∈ P, Measurable (fun p : (ℕ → X) × X => d.dens (d.parents.map p.1) p.2))
    (hone : ∀ d ∈ Q, ∀ v : ℕ → X, ∫⁻ x, d.dens (d.parents.map v) x ∂(μ d.name) = 1)
    (names : Fin k → Name) (hn : Function.Injective names)
    (hlat : ∀ n, n ∈ Q.map Decl.name ↔ ∃ i, names i = n)
    (mk : (i : Fin k) → (κ i → ℝ) → X) (hmk : ∀ i, Measurable (mk i))
    (un : (i : Fin k) → X → κ i → ℝ) (hun : ∀ i, Measurable (un i)) (hinv : ∀ i v, un i (mk i v) = v)
    (hnum : OnNumbers μ names mk)
    (observed : Dict Name ((K × D) → X)) (ho : observed.WF) (hcov : ∀ c, Covers Q P (atChain observed c))
    (logPrior logJoint valPrior valJoint : ((K × D) → (Σ i, κ i) → ℝ) → (K × D) → ℝ)
    (h1 : ∀ q, ∃ dr l, getLogPosterior dr mq Q (List.ofFn names) observed (latentTensors mk q) = .ok l ∧
      ∀ c, l c = (logPrior q c : EReal))
    (h2 : ∀ q, ∃ dr l, getLogPosterior dr m P (List.ofFn names) observed (latentTensors mk q) = .ok l ∧
      ∀ c, l c = (logJoint q c : EReal))
    (h3 : ∀ q, ∃ dr l, netLogJoint dr mq Q (valObs (List.ofFn names) (latentTensors mk q) observed) = .ok l ∧
      ∀ c, l c = (valPrior q c : EReal))
    (h4 : ∀ q, ∃ dr l, netLogJoint dr m P (valObs (List.ofFn names) (latentTensors mk q) observed) = .ok l ∧
      ∀ c, l c = (valJoint q c : EReal))
    (g : ℝ → (K × D) → ((Σ i, κ i) → ℝ) → (Σ i, κ i) → ℝ) (hg : ∀ t c, Measurable (g t c))
    (cfg : Hmc.Cfg ℝ) (hc1 : cfg.adaptsStep = false) (hc2 : cfg.adaptsMass = false) (feed : Hmc.Feed)
    (n nAdapt : ℕ) (hn0 : n ≠ 0) (s : Hmc.State ℝ (K × D) (Σ i, κ i)) (draw1 : (K × D) → ℕ → X)
    (adaptNoise : Fin nAdapt → ((K × D) → (Σ i, κ i) → ℝ) × ((K × D) → ℝ)) (w0 : ℕ → X) (x0 : X)
    (logZ : D → ℝ) (hZ : ∀ k d, evidence μ P (atChain observed (k, d)) x0 = ENNReal.ofReal (Real.exp (logZ d))) :
    let op := Ais.hmcOp cfg feed logPrior logJoint (fun t q c => g t c (q c))
    let proposal : Measure ((K × D) → ℕ → X) := Measure.pi fun _ => latentLaw μ Q w0
    let noise : Measure (((K × D) → (Σ i, κ i) → ℝ) × ((K × D) → ℝ)) :=
      (Measure.pi fun _ => Measure.pi fun _ => gaussianReal 0 1).prod (Measure.pi fun _ => volume.restrict (Ico 0 1))
    let Pr := proposal.prod (Measure.pi fun _ : Fin n => noise)
    ∃ W : ((K × D) → ℕ → X) × (Fin n → ((K × D) → (Σ i, κ i) → ℝ) × ((K × D) → ℝ)) → K → D → ℝ,
      (∀ w z, (Ais.logWeights op (initLatent un mq Q (List.ofFn names))
        (fun s c => Ais.logFn valPrior valJoint 0 s.q c) n nAdapt s draw1 w adaptNoise z).map
          (fun lw => fun k d => lw (k, d)) = some (W (w, z))) ∧
      ∫⁻ p, ENNReal.ofReal (Ais.result (W p)) ∂Pr < ∞ ∧
      (Integrable (fun p => Ais.result (W p)) Pr → ∫ p, Ais.result (W p) ∂Pr ≤ (∑ d, logZ d) / Fintype.card D) ∧
      ∀ (d : D) (b : ℝ), Pr {p | logZ d + b ≤ Ais.lowerBound (W p) d} ≤ ENNReal.ofReal (Real.exp (-b)) := by
  intro op proposal noise Pr
  obtain ⟨W, mW, hW, hE⟩ := C79_weight μ Q P hQ hP mq m hmq hm hmQ hmP hone names hn hlat mk hmk un hun hinv hnum
    observed ho hcov logPrior logJoint valPrior valJoint h1 h2 h3 h4 g hg cfg hc1 hc2 feed n nAdapt hn0 s draw1
    adaptNoise w0 x0
  have hprob := latentLaw_prob μ hQ hmQ hone w0
  have hu : IsProbabilityMeasure (volume.restrict (Ico (0 : ℝ) 1)) := ⟨by simp⟩
  have hPr : IsProbabilityMeasure Pr := by
    simp only [Pr, proposal, noise]
    infer_instance
  have hE' : ∀ (k : K) (d : D), ∫⁻ p, ENNReal.ofReal (Real.exp (W p (k, d))) ∂Pr =
      ENNReal.ofReal (Real.exp (logZ d)) := fun k d => (hE (k, d)).trans (hZ k d)
  have mW' : ∀ (k : K) (d : D), Measurable fun p => W p (k, d) := fun k d => mW (k, d)
  refine ⟨fun p k d => W p (k, d), fun w z => by rw [hW w z]; rfl,
    Ais.C49_above Pr (fun p k d => W p (k, d)) mW' logZ hE',
    Ais.C49_lower_bound Pr (fun p k d => W p (k, d)) mW' logZ hE',
    Ais.C49_tail Pr (fun p k d => W p (k, d)) mW' logZ hE'⟩

end

/-! ### A case: the mean of a normal distribution, with the prior as the proposal -/

/-- `z` is standard normal. -/
noncomputable def normalPrior : List (Decl ℝ) := [⟨"z", [], fun _ z => gaussianPDF 0 1 z⟩]

theorem normalPrior_wf : WellFormed normalPrior := by
  refine ⟨by decide, fun i d h p hp => ?_⟩
  match i with
  | 0 => simp [normalPrior] at h; subst h; simp at hp
  | n + 1 => simp [normalPrior] at h

theorem normalPrior_dens (obs : Dict Name ℝ) (h : obs.get? "z" = none) (x0 : ℕ → ℝ)
    (q : (Σ _ : Fin 1, Unit) → ℝ) :
    posteriorDens normalPrior (fun _ => "z") oneNumber obs x0 q = gaussianPDF 0 1 (q ⟨0, ()⟩) := by
  have h' : ∀ (a : Decl ℝ) (x : ℕ → ℝ), jointDens [a] x = a.dens (a.parents.map x) (x 0) := by
    intro a x
    simp [jointDens]
  rw [posteriorDens, normalPrior, h']
  simp [placed, latentDict, Dict.get?, oneNumber, h]

theorem oneNumber_volume : OnNumbers (fun _ => (volume : Measure ℝ)) (fun _ : Fin 1 => "z") oneNumber := fun _ =>
  (volume_preserving_funUnique Unit ℝ).map_eq.symm

/-- A log that is a real number. -/
theorem log_real {p : ℝ≥0∞} (h0 : p ≠ 0) (ht : p ≠ ∞) : p.log = (p.log.toReal : EReal) :=
  (EReal.coe_toReal (by rwa [Ne, ENNReal.log_eq_top_iff]) (by rwa [Ne, ENNReal.log_eq_bot_iff])).symm

/-- The hypotheses of `C79_weight` are met: any number of chains, each with its own observation. -/
example {C : Type} [Fintype C] [Nonempty C] (x : C → ℝ) :
    (∀ d ∈ normalPrior, ∀ v : ℕ → ℝ, ∫⁻ z, d.dens (d.parents.map v) z = 1) ∧
    (∀ n, n ∈ normalPrior.map Decl.name ↔ ∃ _ : Fin 1, "z" = n) ∧
    (∀ c, Covers normalPrior normalMean (atChain [("x", x)] c)) ∧
    ∃ logPrior logJoint : (C → (Σ _ : Fin 1, Unit) → ℝ) → C → ℝ,
      (∀ q, ∃ dr l, getLogPosterior dr none normalPrior (List.ofFn fun _ : Fin 1 => "z") [("x", x)]
        (latentTensors oneNumber q) = .ok l ∧ ∀ c, l c = (logPrior q c : EReal)) ∧
      (∀ q, ∃ dr l, getLogPosterior dr none normalMean (List.ofFn fun _ : Fin 1 => "z") [("x", x)]
        (latentTensors oneNumber q) = .ok l ∧ ∀ c, l c = (logJoint q c : EReal)) ∧
      (∀ q, ∃ dr l, netLogJoint dr none normalPrior (valObs (List.ofFn fun _ : Fin 1 => "z")
        (latentTensors oneNumber q) [("x", x)]) = .ok l ∧ ∀ c, l c = (logPrior q c : EReal)) ∧
      (∀ q, ∃ dr l, netLogJoint dr none normalMean (valObs (List.ofFn fun _ : Fin 1 => "z")
        (latentTensors oneNumber q) [("x", x)]) = .ok l ∧ ∀ c, l c = (logJoint q c : EReal)) := by
  have hin : Function.Injective fun _ : Fin 1 => ("z" : Name) := fun a b _ => Subsingleton.elim a b
  have ho : Dict.WF [(("x" : Name), x)] := by simp [Dict.WF, Dict.keys]
  have hno : ∀ _ : Fin 1, Dict.get? [(("x" : Name), x)] "z" = none := fun _ => by simp [Dict.get?]
  have hpos : ∀ a b : ℝ, gaussianPDF a 1 b ≠ 0 := fun a b => (gaussianPDF_pos a one_ne_zero b).ne'
  have hfin : ∀ a b : ℝ, gaussianPDF a 1 b ≠ ∞ := fun a b => gaussianPDF_lt_top.ne
  have hz : ∀ c, Dict.get? (atChain [(("x" : Name), x)] c) "z" = none := fun c => by simp [atChain, Dict.get?]
  have key1 : ∀ q : C → (Σ _ : Fin 1, Unit) → ℝ, ∃ dr l, getLogPosterior dr none normalPrior
      (List.ofFn fun _ : Fin 1 => "z") [("x", x)] (latentTensors oneNumber q) = .ok l ∧
      ∀ c, l c = ((gaussianPDF 0 1 (q c ⟨0, ()⟩)).log.toReal : EReal) := by
    intro q
    obtain ⟨l, a, b⟩ := C78_log_posterior (C := C) (fun _ _ => (0 : ℝ)) none (Or.inl rfl) normalPrior normalPrior_wf
      (fun _ : Fin 1 => "z") hin oneNumber [("x", x)] ho q
    refine ⟨_, l, a, fun c => ?_⟩
    rw [b c, normalPrior_dens _ (hz c)]
    exact log_real (hpos _ _) (hfin _ _)
  have key2 : ∀ q : C → (Σ _ : Fin 1, Unit) → ℝ, ∃ dr l, getLogPosterior dr none normalMean
      (List.ofFn fun _ : Fin 1 => "z") [("x", x)] (latentTensors oneNumber q) = .ok l ∧
      ∀ c, l c = ((gaussianPDF 0 1 (q c ⟨0, ()⟩) * gaussianPDF (q c ⟨0, ()⟩) 1 (x c)).log.toReal : EReal) := by
    intro q
    obtain ⟨l, a, b⟩ := C78_log_posterior (C := C) (fun _ _ => (0 : ℝ)) none (Or.inl rfl) normalMean normalMean_wf
      (fun _ : Fin 1 => "z") hin oneNumber [("x", x)] ho q
    refine ⟨_, l, a, fun c => ?_⟩
    rw [b c, atChain, List.map_cons, List.map_nil, normalMean_dens]
    exact log_real (mul_ne_zero (hpos _ _) (hpos _ _)) (ENNReal.mul_ne_top (hfin _ _) (hfin _ _))
  refine ⟨?_, ?_, ?_, _, _, key1, key2, fun q => ?_, fun q => ?_⟩
  · intro d hd v
    simp only [normalPrior, List.mem_singleton] at hd
    subst hd
    exact lintegral_gaussianPDF_eq_one 0 one_ne_zero
  · intro n
    simp [normalPrior, eq_comm]
  · intro c n
    simp only [normalPrior, normalMean, atChain, List.map_cons, List.map_nil, List.mem_cons, List.not_mem_nil, or_false,
      Dict.get?]
    constructor
    · rintro rfl
      simp
    · rintro ⟨rfl | rfl, h⟩
      · rfl
      · simp at h
  · obtain ⟨dr, l, a, b⟩ := key1 q
    refine ⟨dr, l, ?_, b⟩
    rw [netLogJoint_valObs dr none (Or.inl rfl) normalPrior normalPrior_wf (fun _ : Fin 1 => "z") hin _ _ ho hno, a]
  · obtain ⟨dr, l, a, b⟩ := key2 q
    refine ⟨dr, l, ?_, b⟩
    rw [netLogJoint_valObs dr none (Or.inl rfl) normalMean normalMean_wf (fun _ : Fin 1 => "z") hin _ _ ho hno, a]

/-- Why latent and observed names have to be different, which is not checked: `log_fn_val` (evaluation.py 106)
evaluates the nets at the latent value of a name that is both, HMC (hmc.py 427–428) at its observed value. -/
theorem C79_overlap : ∃ (prog : List (Decl ℝ)) (dr : ℕ → Unit → ℝ) (observed : Dict Name (Unit → ℝ))
    (q : Unit → (Σ _ : Fin 1, Unit) → ℝ) (l l' : Unit → EReal), WellFormed prog ∧ observed.WF ∧
    getLogPosterior dr none prog (List.ofFn fun _ : Fin 1 => "z") observed (latentTensors oneNumber q) = .ok l ∧
    netLogJoint dr none prog (valObs (List.ofFn fun _ : Fin 1 => "z") (latentTensors oneNumber q) observed) = .ok l' ∧
    l () ≠ l' () := by
  have ho : Dict.WF [(("z" : Name), fun _ : Unit => (0 : ℝ))] := by simp [Dict.WF, Dict.keys]
  have ho' : Dict.WF ([] : Dict Name (Unit → ℝ)) := by simp [Dict.WF, Dict.keys]
  have hin : Function.Injective fun _ : Fin 1 => ("z" : Name) := fun a b _ => Subsingleton.elim a b
  have hg : gaussianPDF 0 1 0 ≠ gaussianPDF 0 1 1 := by
    intro h
    have h := congrArg ENNReal.toReal h
    rw [toReal_gaussianPDF, toReal_gaussianPDF, gaussianPDFReal, gaussianPDFReal] at h
    have hs : (√(2 * Real.pi * ((1 : NNReal) : ℝ)))⁻¹ ≠ 0 :=
      inv_ne_zero (Real.sqrt_ne_zero'.2 (by have := Real.pi_pos; simp [this]))
    have h := Real.exp_injective (mul_left_cancel₀ hs h)
    norm_num at h
  obtain ⟨l, a, b⟩ := C78_log_posterior (C := Unit) (fun _ _ => (0 : ℝ)) none (Or.inl rfl) normalPrior normalPrior_wf
    (fun _ : Fin 1 => "z") hin oneNumber [("z", fun _ => 0)] ho (fun _ _ => 1)
  obtain ⟨l', a', b'⟩ := C78_log_posterior (C := Unit) (fun _ _ => (0 : ℝ)) none (Or.inl rfl) normalPrior
    normalPrior_wf (fun _ : Fin 1 => "z") hin oneNumber [] ho' (fun _ _ => 1)
  refine ⟨normalPrior, fun _ _ => 0, [("z", fun _ => 0)], fun _ _ => 1, l, l', normalPrior_wf, ho, a, ?_, ?_⟩
  · rw [← a', getLogPosterior]
    refine netLogJoint_congr _ _ (Or.inl rfl) _ normalPrior_wf _ _ fun n => ?_
    rw [valObs_get? _ (List.nodup_ofFn.2 hin) _ _ ho, Hmc.C57_joint _ (List.nodup_ofFn.2 hin) _ _ ho']
    simp only [latentTensors, List.ofFn_succ, List.ofFn_zero, List.zip_cons_cons, List.zip_nil_right, Dict.get?]
    by_cases hn : "z" = n <;> simp [hn]
  · rw [b, b', normalPrior_dens (atChain [] ()) rfl]
    have h' : ∀ (a : Decl ℝ) (x : ℕ → ℝ), jointDens [a] x = a.dens (a.parents.map x) (x 0) := by
      intro a x
      simp [jointDens]
    rw [posteriorDens, normalPrior, h']
    have : (Dict.get? (atChain [(("z" : Name), fun _ : Unit => (0 : ℝ))] ()) "z") = some 0 := by
      simp [atChain, Dict.get?]
    simp only [placed, List.getElem?_cons_zero, this]
    exact fun h => hg (ENNReal.log_injective h)

end ZhuSuan.BN
