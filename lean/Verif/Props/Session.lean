import Verif.Model.Session
import Verif.Spec.Session
import Verif.Props.Program

/-!
# C114: stochastic tensors in `session.run`
-/
set_option autoImplicit false

namespace ZhuSuan.BN

variable {V X R : Type}

section
variable [Inhabited X] (smp : ℕ → List X → R → X) (dist : ℕ → Dist V X) (ext : V → X) (fed : ℕ → Option X) (noise : ℕ → R)

theorem drawVals_stable {i n : ℕ} (h : i < n) :
    drawVals smp dist ext fed noise n i = drawVals smp dist ext fed noise (i + 1) i := by
  induction n with
  | zero => omega
  | succ n ih =>
    rcases Nat.lt_succ_iff_lt_or_eq.mp h with h' | rfl
    · rw [drawVals, Function.update_of_ne (by omega), ih h']
    · rfl

theorem drawVals_le {i a b : ℕ} (ha : i < a) (hb : i < b) :
    drawVals smp dist ext fed noise a i = drawVals smp dist ext fed noise b i :=
  (drawVals_stable smp dist ext fed noise ha).trans (drawVals_stable smp dist ext fed noise hb).symm

theorem drawVals_eq {i n : ℕ} (h : i < n) :
    drawVals smp dist ext fed noise n i =
      (fed i).getD (smp i ((dist i).params.map (tensorVal (ext, drawVals smp dist ext fed noise i))) (noise i)) := by
  rw [drawVals_stable smp dist ext fed noise h, drawVals, Function.update_self]
end

/-- Held fixed or computed in the order of the statements, there is only one sample. -/
theorem Ancestral.unique {prog : List (Decl X)} (hwf : WellFormed prog) {smp : ℕ → List X → R → X}
    {given : ℕ → Option X} {noise : ℕ → R} {x y : ℕ → X} (hx : Ancestral prog smp given noise x)
    (hy : Ancestral prog smp given noise y) (i : ℕ) (hi : i < prog.length) : x i = y i := by
  induction i using Nat.strong_induction_on with
  | _ i ih =>
    have hd := List.getElem?_eq_getElem hi
    rw [hx i _ hd, hy i _ hd]
    have : prog[i].parents.map x = prog[i].parents.map y := by
      refine List.map_congr_left fun p hp => ?_
      have := hwf.2 i _ hd p hp
      exact ih p this (by omega)
    rw [this]

theorem comprehension_of_values {L : Type} {env : Env V (Dist V X) L} {s : State V (Dist V X) L} (ks : List (ℕ ⊕ V))
    (val : ℕ → Tensor V) (h : ∀ i, .inl i ∈ ks → HasValue s i (val i)) :
    comprehension (keyTensor env) s (ks.map keyOf) = (.ok (ks.map (Sum.elim val .ext)), s) := by
  induction ks with
  | nil => rfl
  | cons k ks ih =>
    have ih := ih fun j hj => h j (List.mem_cons_of_mem _ hj)
    cases k with
    | inl i =>
      rw [List.map_cons, keyOf, comprehension, keyTensor, objTensor_of_value (h i (by simp))]
      simp only
      rw [ih]
      rfl
    | inr v =>
      rw [List.map_cons, keyOf, comprehension, keyTensor]
      simp only
      rw [ih]
      rfl

variable [DecidableEq V] [Inhabited X]

/-- **C114.** A model is built under the observations `lo`, its log joint is asked for, and `session.run` fetches the log joint and any
stochastic tensors, with a feed dictionary whose keys are stochastic tensors and external tensors.  It returns the sample that the program makes
when the observed and the fed nodes are held fixed, and the log density of the program at that very sample. -/
theorem C114_run {prog : List (Decl X)} (hwf : WellFormed prog) (lo : Option (Dict Name (Option V)))
    (m : Option (LogJoint (World V X → EReal))) (hm : m = none ∨ m = some .unset) :
    ∃ s l s', build senv (State.init lo m []) prog = (.ok (), s) ∧ logJoint senv s = (.ok l, s') ∧
      ∀ (smp : ℕ → List X → R → X) (own : V → X) (noise : ℕ → R) (fetches : List ℕ) (fed : List ((ℕ ⊕ V) × X)),
        (∀ i ∈ fetches, i < prog.length) → (∀ p ∈ fed, IsKey prog.length p.1) →
        ∃ x, Ancestral prog smp (fixed own lo prog fed) noise x ∧
          sessionRun senv smp own s' l (fetches.map Key.stoch) (fed.map fun p => (keyOf p.1, p.2)) noise =
            (.ok ((jointDens prog x).log, fetches.map x), s') := by
  obtain ⟨h1, h2⟩ := (BuildInv.init (senv (V := V) (X := X)) lo m).build (fun _ => rfl) (fun _ _ => rfl) []
    prog (by simpa using hwf)
  rcases hq : build senv (State.init lo m []) prog with ⟨a, s⟩
  rw [hq] at h1 h2
  simp only [List.nil_append] at h1 h2
  subst h1
  obtain ⟨l, hl⟩ := h2.logJoint_ok (fun _ => rfl) (fun _ _ => rfl) hm
  obtain ⟨ops, hops, hc⟩ := h2.hist
  have hops' : s = hist senv lo m [] ops := hops
  have hs' : (logJoint senv s).2 = final wEv wDr lo m [] ops := by
    simp only [final, ← hops', step]
    rcases logJoint senv s with ⟨a, s1⟩
    cases a <;> rfl
  have hst : (step senv (hist senv lo m [] ops) .logJoint).1 = .ok (.val l) := by
    simp only [← hops', step]
    rw [hl]
  obtain ⟨f1, f2, f3, f4⟩ := final_facts wEv wDr lo m [] ops hm hc l hst
  have hstill : Still s (final wEv wDr lo m [] ops) := by
    rw [hops']; exact logJoint_still _ _ (hist_inv _ _ _ _ _)
  obtain ⟨hlen, hob, hdist, hval⟩ := build_values h2 hstill f1
  have hprod := build_product h2 hstill f1 f3
  generalize hS : final (wEv (V := V) (X := X)) wDr lo m [] ops = S at *
  refine ⟨s, l, S, rfl, by rw [← hs', hl], ?_⟩
  intro smp own noise fetches fed hfetch hfed
  -- the tensors of the nodes
  have hdraw : ∀ i, i < prog.length → (prog[i]?).bind (fun d => obsOf lo d.name) = none →
      ∃ k, nodeValue S i = .draw i k := by
    intro i hi hno
    obtain ⟨o, ho, hv⟩ := f3 i (by rw [hlen]; exact hi)
    have hobs := hob i
    rw [hno] at hobs
    simp only [isObs, ho, Option.isSome_none, Option.isSome_eq_false_iff, Option.isNone_iff_eq_none] at hobs
    unfold Obj.value at hv
    split at hv
    · rw [hobs, Option.map_none, Option.none_or] at hv
      obtain ⟨_, _, k, h4, _⟩ := (f1.objs i o ho).sampled _ hv
      exact ⟨k, h4⟩
    · cases hv
  have hobsv : ∀ i, i < prog.length → ∀ v, (prog[i]?).bind (fun d => obsOf lo d.name) = some v →
      nodeValue S i = .ext v := by
    intro i hi v hv
    have hd := List.getElem?_eq_getElem hi
    obtain ⟨o, g1, _, g3, g4, _⟩ := h2.obj i _ hd
    obtain ⟨o', ho', hle⟩ := hstill.obj i o g1
    rw [hd, Option.bind_some, ← g4, ← hle.observation] at hv
    have : HasValue S i (.ext v) := ⟨o', ho', by simp [Obj.value, hle.ready, g3, hv]⟩
    exact nodeValue_of this
  have hcf := comprehension_of_values (env := senv) (fed.map Prod.fst) (nodeValue S) fun i hi => by
    obtain ⟨p, hp, hpi⟩ := List.mem_map.mp hi
    have := hfed p hp
    rw [hpi] at this
    exact f3 _ (by rw [hlen]; exact this)
  have hcg := comprehension_of_values (env := senv) (fetches.map Sum.inl) (nodeValue S) fun i hi => by
    obtain ⟨j, hj, hji⟩ := List.mem_map.mp hi
    cases hji
    exact f3 _ (by rw [hlen]; exact hfetch _ hj)
  set ten : ℕ ⊕ V → Tensor V := Sum.elim (nodeValue S) .ext with hten
  set feeds : List (Tensor V × X) := fed.map fun p => (ten p.1, p.2) with hfeeds
  have hzip : ((fed.map Prod.fst).map ten).zip (fed.map Prod.snd) = feeds := by
    rw [hfeeds, List.map_map]
    clear hcf hfed hfeeds feeds
    induction fed with
    | nil => rfl
    | cons p t ih => simp only [List.map_cons, List.zip_cons_cons, ih]; rfl
  have hnode : ∀ p ∈ fed, (∃ v, target lo prog p.1 = .inr v ∧ ten p.1 = .ext v) ∨
      (∃ i k, target lo prog p.1 = .inl i ∧ ten p.1 = .draw i k) := by
    rintro ⟨q, a⟩ hp
    have hk := hfed _ hp
    cases q with
    | inr v => exact Or.inl ⟨v, rfl, rfl⟩
    | inl i =>
      simp only [target]
      cases hoi : (prog[i]?).bind (fun d => obsOf lo d.name) with
      | some v => exact Or.inl ⟨v, rfl, hobsv i hk v hoi⟩
      | none =>
        obtain ⟨k, hk'⟩ := hdraw i hk hoi
        exact Or.inr ⟨i, k, rfl, hk'⟩
  have hext : ∀ v, fedExt feeds v = fedTo lo prog fed (.inr v) := by
    intro v
    rw [fedExt, hfeeds, ← List.map_reverse, List.findSome?_map, fedTo, find_findSome]
    refine findSome_congr fun q hq => ?_
    rw [List.mem_reverse] at hq
    rcases hnode q hq with ⟨u, h1, h2⟩ | ⟨i, k, h1, h2⟩
    · simp [Function.comp_apply, h1, h2]
    · simp [Function.comp_apply, h1, h2]
  have hdr : ∀ i, fedDraw feeds i = fedTo lo prog fed (.inl i) := by
    intro i
    rw [fedDraw, hfeeds, ← List.map_reverse, List.findSome?_map, fedTo, find_findSome]
    refine findSome_congr fun q hq => ?_
    rw [List.mem_reverse] at hq
    rcases hnode q hq with ⟨u, h1, h2⟩ | ⟨i, k, h1, h2⟩
    · simp [Function.comp_apply, h1, h2]
    · simp [Function.comp_apply, h1, h2]
  set w : World V X := runWorld smp own S feeds noise with hw
  have hw1 : ∀ v, w.1 v = (fedTo lo prog fed (.inr v)).getD (own v) := by
    intro v
    rw [hw, runWorld]; simp [hext]
  set x : ℕ → X := nodeVal wEv wDr lo prog w with hx
  have hdo : ∀ i, distOf S i = nodeDist S i := fun _ => rfl
  refine ⟨x, ?_, ?_⟩
  · intro i d hd
    have hi : i < prog.length := (List.getElem?_eq_some_iff.1 hd).1
    cases hoi : (prog[i]?).bind (fun d => obsOf lo d.name) with
    | some v =>
      simp only [fixed, hoi]
      rw [hx, nodeVal, hoi]
      exact hw1 v
    | none =>
      have hxi : x i = w.2 i := by rw [hx, nodeVal, hoi]
      simp only [fixed, hoi]
      have hw2 : w.2 i = (fedTo lo prog fed (.inl i)).getD (smp i (d.parents.map x) (noise i)) := by
        rw [← (hdist i d hd).2 w]
        rw [hw, runWorld]
        simp only
        rw [drawVals_eq _ _ _ _ _ (by rw [hlen]; exact hi), hdr]
        congr 2
        rw [hdo]
        refine List.map_congr_left fun t ht => ?_
        -- a parameter is the value of an earlier node
        obtain ⟨o, g1, g2, g3, g4, g5⟩ := h2.obj i d hd
        obtain ⟨o', ho', hle⟩ := hstill.obj i o g1
        rw [nodeDist_of ho', hle.dist] at ht
        obtain ⟨p, hp, hpt⟩ := forall₂_mem g5 ht
        have hpi := hwf.2 i d hd p hp
        cases t with
        | ext v => rfl
        | draw j k =>
          obtain ⟨o2, ho2, hv2⟩ := hpt.mono hstill.toGrow
          have hj : j = p := by
            unfold Obj.value at hv2
            split at hv2
            · cases hoo : o2.observation with
              | some v => simp [hoo] at hv2
              | none =>
                rw [hoo, Option.map_none, Option.none_or] at hv2
                obtain ⟨_, _, k', h4, _⟩ := (f1.objs p o2 ho2).sampled _ hv2
                cases h4; rfl
            · cases hv2
          subst hj
          exact drawVals_le _ _ _ _ _ hpi (by rw [hlen]; omega)
      rw [hxi, hw2]
      cases fedTo lo prog fed (.inl i) <;> rfl
  · rw [sessionRun]
    have e1 : (fed.map fun p => (keyOf p.1, p.2)).map Prod.fst = (fed.map Prod.fst).map keyOf := by
      rw [List.map_map, List.map_map]; rfl
    have e2 : (fed.map fun p => (keyOf p.1, p.2)).map Prod.snd = fed.map Prod.snd := by
      rw [List.map_map]; rfl
    have e3 : fetches.map (Key.stoch (V := V)) = (fetches.map Sum.inl).map keyOf := by
      rw [List.map_map]; rfl
    rw [e1, hcf]
    simp only
    rw [e3, hcg]
    simp only
    rw [e2, hzip]
    have el : l w = (jointDens prog x).log := by
      have := f4 w
      rw [hprod w] at this
      rw [hx, ← this]; simp
    have et : ((fetches.map Sum.inl).map ten).map (tensorVal w) = fetches.map x := by
      rw [List.map_map, List.map_map]
      refine List.map_congr_left fun i hi => ?_
      exact hval i _ (f3 i (by rw [hlen]; exact hfetch i hi)) w
    rw [← hw, el, et]
where
  find_findSome {α β : Type} {l : List (α × β)} {P : α × β → Bool} :
      (l.find? P).map Prod.snd = l.findSome? fun p => if P p then some p.2 else none := by
    induction l with
    | nil => rfl
    | cons a l ih =>
      rw [List.find?_cons, List.findSome?_cons]
      cases h : P a
      · simpa using ih
      · simp
  findSome_congr {α β : Type} {l : List α} {f g : α → Option β} (h : ∀ a ∈ l, f a = g a) : l.findSome? f = l.findSome? g := by
    induction l with
    | nil => rfl
    | cons a l ih =>
      simp only [List.findSome?_cons, h a (by simp), ih fun b hb => h b (List.mem_cons_of_mem _ hb)]
  forall₂_mem {α β : Type} {P : α → β → Prop} {as : List α} {bs : List β} (h : List.Forall₂ P as bs) {b : β} (hb : b ∈ bs) :
      ∃ a ∈ as, P a b := by
    induction h with
    | nil => cases hb
    | cons hab _ ih =>
      rcases List.mem_cons.mp hb with rfl | hb
      · exact ⟨_, by simp, hab⟩
      · obtain ⟨a, ha, hp⟩ := ih hb
        exact ⟨a, List.mem_cons_of_mem _ ha, hp⟩

omit [Inhabited X] in
theorem jointDens_congr {prog : List (Decl X)} (hwf : WellFormed prog) {x y : ℕ → X}
    (h : ∀ i < prog.length, x i = y i) : jointDens prog x = jointDens prog y := by
  unfold jointDens
  refine Finset.prod_congr rfl fun i _ => ?_
  have hp : (prog.get i).parents.map x = (prog.get i).parents.map y :=
    List.map_congr_left fun p hp => h p ((hwf.2 i _ (by simp) p hp).trans i.2)
  rw [hp, h i i.2]

/-- **C114.** Feeding is observing: a run that feeds values to stochastic tensors that are not observed returns what a run without feeds returns
for the net that is built with these values as observations, whatever the noise; `const x` is a constant tensor of value `x`. -/
theorem C114_feed_is_observe {prog : List (Decl X)} (hwf : WellFormed prog) (lo lo' : Option (Dict Name (Option V)))
    (m : Option (LogJoint (World V X → EReal))) (hm : m = none ∨ m = some .unset)
    (own : V → X) (const : X → V) (hconst : ∀ x, own (const x) = x) (fed : List (ℕ × X)) (hnd : (fed.map Prod.fst).Nodup)
    (hfed : ∀ p ∈ fed, p.1 < prog.length ∧ (prog[p.1]?).bind (fun d => obsOf lo d.name) = none)
    (hlo : ∀ i d, prog[i]? = some d → (∀ x, (i, x) ∈ fed → obsOf lo' d.name = some (const x)) ∧
      ((∀ x, (i, x) ∉ fed) → obsOf lo' d.name = obsOf lo d.name)) :
    ∃ s l s' r k r', build senv (State.init lo m []) prog = (.ok (), s) ∧ logJoint senv s = (.ok l, s') ∧
      build senv (State.init lo' m []) prog = (.ok (), r) ∧ logJoint senv r = (.ok k, r') ∧
      ∀ (smp : ℕ → List X → R → X) (noise : ℕ → R) (fetches : List ℕ), (∀ i ∈ fetches, i < prog.length) →
        ∃ out, (sessionRun senv smp own s' l (fetches.map Key.stoch) (fed.map fun p => (Key.stoch p.1, p.2)) noise).1 = .ok out ∧
          (sessionRun senv smp own r' k (fetches.map Key.stoch) [] noise).1 = .ok out := by
  obtain ⟨s, l, s', h1, h2, h3⟩ := C114_run (R := R) hwf lo m hm
  obtain ⟨r, k, r', g1, g2, g3⟩ := C114_run (R := R) hwf lo' m hm
  refine ⟨s, l, s', r, k, r', h1, h2, g1, g2, fun smp noise fetches hf => ?_⟩
  obtain ⟨x, hx, hrun⟩ := h3 smp own noise fetches (fed.map fun p => (.inl p.1, p.2)) hf (by
    intro p hp
    obtain ⟨q, hq, rfl⟩ := List.mem_map.mp hp
    exact (hfed q hq).1)
  obtain ⟨y, hy, hrun'⟩ := g3 smp own noise fetches [] hf (by simp)
  have hkeys : (fed.map fun p => ((.inl p.1 : ℕ ⊕ V), p.2)).map (fun p => (keyOf p.1, p.2)) = fed.map fun p => (Key.stoch p.1, p.2) := by
    rw [List.map_map]; rfl
  rw [hkeys] at hrun
  have htarget : ∀ p ∈ fed, target lo prog (.inl p.1) = .inl p.1 := by
    intro p hp
    simp only [target, (hfed p hp).2]
  have hnone : ∀ v, fedTo lo prog (fed.map fun p => ((.inl p.1 : ℕ ⊕ V), p.2)) (.inr v) = none := by
    intro v
    rw [fedTo, Option.map_eq_none_iff, List.find?_eq_none]
    intro p hp
    rw [List.mem_reverse] at hp
    obtain ⟨q, hq, rfl⟩ := List.mem_map.mp hp
    simp [htarget q hq]
  have hfix : Ancestral prog smp (fixed own lo prog (fed.map fun p => (.inl p.1, p.2))) noise y := by
    intro i d hd
    have hyi := hy i d hd
    have e : fixed own lo' prog [] i = fixed own lo prog (fed.map fun p => (.inl p.1, p.2)) i := by
      simp only [fixed, hd, Option.bind_some, hnone]
      by_cases hex : ∃ a, (i, a) ∈ fed
      · obtain ⟨a, ha⟩ := hex
        have hoi : obsOf lo d.name = none := by
          have := (hfed _ ha).2
          simpa [hd] using this
        have hfind : fedTo lo prog (fed.map fun p => ((.inl p.1 : ℕ ⊕ V), p.2)) (.inl i) = some a := by
          rw [fedTo]
          cases hfi : List.find? (fun p => decide (target lo prog p.1 = .inl i)) (fed.map fun p => ((.inl p.1 : ℕ ⊕ V), p.2)).reverse with
          | none =>
            rw [List.find?_eq_none] at hfi
            have := hfi (.inl i, a) (by
              rw [List.mem_reverse]
              exact List.mem_map.mpr ⟨(i, a), ha, rfl⟩)
            simp [htarget _ ha] at this
          | some q =>
            have h1 := List.find?_some hfi
            have h2 := List.mem_of_find?_eq_some hfi
            rw [List.mem_reverse] at h2
            obtain ⟨q', hq', rfl⟩ := List.mem_map.mp h2
            simp only [htarget _ hq', Sum.inl.injEq, decide_eq_true_eq] at h1
            have : q' = (i, a) := by
              have hinj := List.inj_on_of_nodup_map hnd
              exact hinj hq' ha h1
            rw [this]; rfl
        rw [((hlo i d hd).1 a ha), hoi, hfind]
        simp [fedTo, hconst]
      · have hne : ∀ a, (i, a) ∉ fed := fun a ha => hex ⟨a, ha⟩
        rw [(hlo i d hd).2 hne]
        have hfind : fedTo lo prog (fed.map fun p => ((.inl p.1 : ℕ ⊕ V), p.2)) (.inl i) = none := by
          rw [fedTo, Option.map_eq_none_iff, List.find?_eq_none]
          intro p hp
          rw [List.mem_reverse] at hp
          obtain ⟨q, hq, rfl⟩ := List.mem_map.mp hp
          simp only [htarget q hq, Sum.inl.injEq, decide_eq_true_eq]
          rintro rfl
          exact hne q.2 hq
        rw [hfind]
        cases obsOf lo d.name <;> simp [fedTo]
    rwa [e] at hyi
  have hxy := fun i hi => hx.unique hwf hfix i hi
  refine ⟨((jointDens prog x).log, fetches.map x), by rw [hrun], ?_⟩
  rw [List.map_nil] at hrun'
  rw [hrun', jointDens_congr hwf hxy, List.map_congr_left fun i hi => hxy i (hf i hi)]

/-- **C114.** A fed observation: feeding an observed node, or its observation, gives the fed value to every node that is observed with the same
tensor, and to no node that is observed with another tensor. -/
theorem C114_feed_observed {prog : List (Decl X)} (hwf : WellFormed prog) (lo : Option (Dict Name (Option V)))
    (m : Option (LogJoint (World V X → EReal))) (hm : m = none ∨ m = some .unset) :
    ∃ s l s', build senv (State.init lo m []) prog = (.ok (), s) ∧ logJoint senv s = (.ok l, s') ∧
      ∀ (smp : ℕ → List X → R → X) (own : V → X) (noise : ℕ → R) (i j : ℕ) (a : X) (u v : V), i < prog.length → j < prog.length →
        (prog[i]?).bind (fun d => obsOf lo d.name) = some u → (prog[j]?).bind (fun d => obsOf lo d.name) = some v →
        ∃ b, (sessionRun senv smp own s' l [.stoch j] [(.stoch i, a)] noise).1 = .ok (b, [if u = v then a else own v]) := by
  obtain ⟨s, l, s', h1, h2, h3⟩ := C114_run (R := R) hwf lo m hm
  refine ⟨s, l, s', h1, h2, fun smp own noise i j a u v hi hj hu hv => ?_⟩
  obtain ⟨x, hx, hrun⟩ := h3 smp own noise [j] [(.inl i, a)] (by simpa using hj) (by simpa [IsKey] using hi)
  have hxj := hx j _ (List.getElem?_eq_getElem hj)
  simp only [fixed, hv] at hxj
  refine ⟨(jointDens prog x).log, (congrArg Prod.fst hrun).trans ?_⟩
  have e : fedTo lo prog [((.inl i : ℕ ⊕ V), a)] (.inr v) = if u = v then some a else none := by
    by_cases huv : u = v
    · simp [fedTo, target, hu, huv]
    · simp [fedTo, target, hu, huv]
  rw [e] at hxj
  rw [List.map_cons, List.map_nil, hxj]
  by_cases huv : u = v <;> simp [huv]

/-! ## The hypotheses are met -/

/-- Two coins, the first one fed: the second one is drawn given the fed value. -/
example (smp : ℕ → List Bool → Bool → Bool) (noise : ℕ → Bool) :
    ∃ s l s', build senv (State.init (none : Option (Dict Name (Option Bool))) none []) coins = (.ok (), s) ∧ logJoint senv s = (.ok l, s') ∧
      ∃ x, x 0 = true ∧ x 1 = smp 1 [true] (noise 1) ∧
        (sessionRun senv smp id s' l [.stoch 0, .stoch 1] [(.stoch 0, true)] noise).1 = .ok ((jointDens coins x).log, [x 0, x 1]) := by
  obtain ⟨s, l, s', h1, h2, h3⟩ := C114_run (R := Bool) coins_wf (none : Option (Dict Name (Option Bool))) none (Or.inl rfl)
  obtain ⟨x, hx, hrun⟩ := h3 smp id noise [0, 1] [(.inl 0, true)] (by simp [coins]) (by simp [coins, IsKey])
  have x0 : x 0 = true := hx 0 _ rfl
  have x1 : x 1 = smp 1 [x 0] (noise 1) := hx 1 _ rfl
  rw [x0] at x1
  exact ⟨s, l, s', h1, h2, x, x0, x1, congrArg Prod.fst hrun⟩

end ZhuSuan.BN
