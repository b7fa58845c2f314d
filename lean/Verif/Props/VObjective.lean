import Verif.Model.VObjective
import Verif.Props.BayesNet
import Verif.Props.Dict

/-! # C38: a variational objective observes the model at the right latent values -/

set_option autoImplicit false

namespace ZhuSuan.VObj
open ZhuSuan.BN

variable {V D L : Type}

/-- `n` names an unobserved stochastic node of `q`, the object `id`. -/
def Latent (q : State V D L) (n : Name) (id : ℕ) : Prop :=
  q.nodes.get? n = some (.stoch id) ∧ ∃ o, q.heap[id]? = some o ∧ o.observation = none

theorem unobserved_spec (q : State V D L) (l : List (Name × Ref V)) (ins : List (Name × ℕ))
    (h : unobserved q l = .ok ins) :
    (∀ n id, (n, id) ∈ ins ↔ (n, Ref.stoch id) ∈ l ∧ ∃ o, q.heap[id]? = some o ∧ o.observation = none) ∧
    (ins.map Prod.fst).Sublist (l.map Prod.fst) := by
  induction l generalizing ins with
  | nil => simp only [unobserved, Except.ok.injEq] at h; subst h; simp
  | cons a l ih =>
    obtain ⟨n, r⟩ := a
    cases r with
    | det t =>
      simp only [unobserved] at h
      obtain ⟨h1, h2⟩ := ih ins h
      exact ⟨fun m id => by rw [h1]; simp, h2.trans (by simp)⟩
    | stoch id0 =>
      simp only [unobserved] at h
      cases ho : q.heap[id0]? with
      | none => simp [ho] at h
      | some o =>
        simp only [ho] at h
        by_cases hr : o.ready = false
        · simp [hr] at h
        · rw [if_neg hr] at h
          cases hu : unobserved q l with
          | error e => simp [hu] at h
          | ok l' =>
            simp only [hu] at h
            obtain ⟨h1, h2⟩ := ih l' hu
            by_cases hob : o.observation.isSome
            · rw [if_pos hob] at h
              simp only [Except.ok.injEq] at h; subst h
              refine ⟨fun m id => ?_, h2.trans (by simp)⟩
              rw [h1]
              constructor
              · rintro ⟨a, b⟩; exact ⟨by simp [a], b⟩
              · rintro ⟨a, o', b, c⟩
                refine ⟨?_, o', b, c⟩
                simp only [List.mem_cons, Prod.mk.injEq, Ref.stoch.injEq] at a
                rcases a with ⟨rfl, rfl⟩ | a
                · rw [ho] at b; cases b; simp [c] at hob
                · exact a
            · rw [if_neg hob] at h
              simp only [Except.ok.injEq] at h; subst h
              refine ⟨fun m id => ?_, by simpa using h2⟩
              have hnone : o.observation = none := by simpa using hob
              simp only [List.mem_cons, Prod.mk.injEq, Ref.stoch.injEq, h1]
              constructor
              · rintro (⟨rfl, rfl⟩ | ⟨a, b⟩)
                · exact ⟨.inl ⟨rfl, rfl⟩, o, ho, hnone⟩
                · exact ⟨.inr a, b⟩
              · rintro ⟨⟨rfl, rfl⟩ | a, b⟩
                · exact .inl ⟨rfl, rfl⟩
                · exact .inr ⟨a, b⟩

variable [AddCommMonoid L]

/-- Everything known of an object constructed from a variational net with any history. -/
theorem construct_spec (env : Env V D L) (lo : Option (Dict Name (Option V)))
    (m : Option (LogJoint L)) (ob : Dict Name (Option V)) (ops : List (Op V D L))
    (observed : Dict Name (Tensor V)) (v : VObj V L) (q' : Option (State V D L))
    (h : construct env (some (.net (hist env lo m ob ops))) none observed = .ok (v, q')) :
    ∃ ins ls q1, unobserved (hist env lo m ob ops) (hist env lo m ob ops).nodes = .ok ins ∧
      q' = some q1 ∧ Access (hist env lo m ob ops) q1 ∧
      List.Forall₂ (fun i l => CondIs env q1 i.2 l) ins ls ∧
      v = ⟨ins.map (fun i => (i.1, .node i.2)), (ins.map Prod.fst).zip ls, observed⟩ := by
  simp only [construct] at h
  cases hu : unobserved (hist env lo m ob ops) (hist env lo m ob ops).nodes with
  | error e => simp [hu] at h
  | ok ins =>
    simp only [hu] at h
    have hspec := comprehension_spec env (fun s (i : Name × ℕ) => objCondLogP env s i.2)
      (fun s i l => CondIs env s i.2 l) (fun s i hi => objCondLogP_spec env s i.2 hi)
      (fun s s' i a hA hP => hP.mono hA.toGrow) ins _ (hist_inv env lo m ob ops)
    rcases hc : comprehension (fun s (i : Name × ℕ) => objCondLogP env s i.2)
      (hist env lo m ob ops) ins with ⟨r, q1⟩
    rw [hc] at h hspec
    cases r with
    | error e => simp at h
    | ok ls =>
      simp only [Except.ok.injEq, Prod.mk.injEq] at h
      exact ⟨ins, ls, q1, rfl, h.2.symm, hspec.2.1, hspec.2.2 ls rfl, h.1.symm⟩

theorem value_of_hasValue {q : State V D L} {id : ℕ} {t : Tensor V} :
    (VIn.node id : VIn V).value (some q) = some t ↔ HasValue q id t := by
  unfold VIn.value HasValue Obj.value
  cases hq : q.heap[id]? with
  | none => simp [hq]
  | some o =>
    cases hr : o.ready <;> cases ho : o.observation <;> simp [hq, hr, ho]

/-- **C38.** The tensors handed to the model (before the user's observations override) are the values
of exactly the unobserved stochastic nodes of the variational net. -/
theorem C38_latents (env : Env V D L) (lo : Option (Dict Name (Option V)))
    (m : Option (LogJoint L)) (ob : Dict Name (Option V)) (ops : List (Op V D L))
    (observed : Dict Name (Tensor V)) (v : VObj V L) (q' : State V D L)
    (h : construct env (some (.net (hist env lo m ob ops))) none observed = .ok (v, some q'))
    (n : Name) (t : Tensor V) :
    Dict.get? (v.vInputs.map (fun i => (i.1, i.2.value (some q')))) n = some (some t) ↔
      ∃ id, Latent (hist env lo m ob ops) n id ∧ HasValue q' id t := by
  obtain ⟨ins, ls, q1, hu, hq, hacc, hF, rfl⟩ := construct_spec env lo m ob ops observed v _ h
  cases hq
  obtain ⟨h1, h2⟩ := unobserved_spec _ _ _ hu
  have hwf0 := (hist_inv env lo m ob ops).wf
  have hwf : Dict.WF ((ins.map (fun i => (i.1, (VIn.node i.2 : VIn V)))).map
      (fun i => (i.1, i.2.value (some q')))) := by
    have : ((ins.map (fun i => (i.1, (VIn.node i.2 : VIn V)))).map
      (fun i => (i.1, i.2.value (some q')))).map Prod.fst = ins.map Prod.fst := by
      simp [Function.comp_def]
    unfold Dict.WF Dict.keys
    rw [this]
    exact h2.nodup hwf0
  rw [Dict.get?_eq_some_iff hwf]
  simp only [List.map_map, List.mem_map, Function.comp, Prod.mk.injEq]
  constructor
  · rintro ⟨⟨n', id⟩, hi, rfl, hv⟩
    obtain ⟨a, b⟩ := (h1 _ _).1 hi
    exact ⟨id, ⟨(Dict.get?_eq_some_iff hwf0).2 a, b⟩, value_of_hasValue.1 hv⟩
  · rintro ⟨id, ⟨a, b⟩, hv⟩
    exact ⟨(n, id), (h1 _ _).2 ⟨(Dict.get?_eq_some_iff hwf0).1 a, b⟩, rfl, value_of_hasValue.2 hv⟩

/-- Every latent node has its value (it has been sampled) once the objective exists. -/
theorem C38_latents_sampled (env : Env V D L) (lo : Option (Dict Name (Option V)))
    (m : Option (LogJoint L)) (ob : Dict Name (Option V)) (ops : List (Op V D L))
    (observed : Dict Name (Tensor V)) (v : VObj V L) (q' : State V D L)
    (h : construct env (some (.net (hist env lo m ob ops))) none observed = .ok (v, some q'))
    (n : Name) (id : ℕ) (hl : Latent (hist env lo m ob ops) n id) :
    ∃ t, HasValue q' id t := by
  obtain ⟨ins, ls, q1, hu, hq, hacc, hF, rfl⟩ := construct_spec env lo m ob ops observed v _ h
  cases hq
  obtain ⟨h1, h2⟩ := unobserved_spec _ _ _ hu
  have hwf0 := (hist_inv env lo m ob ops).wf
  have hmem : (n, id) ∈ ins := (h1 _ _).2 ⟨(Dict.get?_eq_some_iff hwf0).1 hl.1, hl.2⟩
  obtain ⟨k, hk, he⟩ := List.mem_iff_getElem.1 hmem
  have hk2 : k < ls.length := by rw [← hF.length_eq]; exact hk
  have := (List.forall₂_iff_get.1 hF).2 k hk hk2
  simp only [List.get_eq_getElem, he] at this
  obtain ⟨o, t, ho, hv, _⟩ := this
  exact ⟨t, o, ho, hv⟩

/-- **C38.** The recorded log probabilities are those of exactly these nodes at these values. -/
theorem C38_log_probs (env : Env V D L) (lo : Option (Dict Name (Option V)))
    (m : Option (LogJoint L)) (ob : Dict Name (Option V)) (ops : List (Op V D L))
    (observed : Dict Name (Tensor V)) (v : VObj V L) (q' : State V D L)
    (h : construct env (some (.net (hist env lo m ob ops))) none observed = .ok (v, some q'))
    (n : Name) (l : L) :
    v.vLogProbs.get? n = some l ↔
      ∃ id, Latent (hist env lo m ob ops) n id ∧ CondIs env q' id l := by
  obtain ⟨ins, ls, q1, hu, hq, hacc, hF, rfl⟩ := construct_spec env lo m ob ops observed v _ h
  cases hq
  obtain ⟨h1, h2⟩ := unobserved_spec _ _ _ hu
  have hwf0 := (hist_inv env lo m ob ops).wf
  have hlen := hF.length_eq
  have hkeys : ((ins.map Prod.fst).zip ls).map Prod.fst = ins.map Prod.fst :=
    List.map_fst_zip (by simp [hlen])
  have hwf : Dict.WF ((ins.map Prod.fst).zip ls) := by
    unfold Dict.WF Dict.keys
    rw [hkeys]
    exact h2.nodup hwf0
  simp only
  rw [Dict.get?_eq_some_iff hwf, List.mem_iff_getElem]
  have hget := (List.forall₂_iff_get.1 hF).2
  constructor
  · rintro ⟨k, hk, he⟩
    have hk1 : k < ins.length := by simp at hk; omega
    have hk2 : k < ls.length := by omega
    simp only [List.getElem_zip, List.getElem_map, Prod.mk.injEq] at he
    have hm : (n, (ins[k]).2) ∈ ins := by
      rw [← he.1]; exact List.getElem_mem hk1
    obtain ⟨a, b⟩ := (h1 _ _).1 hm
    have hc := hget k hk1 hk2
    simp only [List.get_eq_getElem, he.2] at hc
    exact ⟨_, ⟨(Dict.get?_eq_some_iff hwf0).2 a, b⟩, hc⟩
  · rintro ⟨id, ⟨a, b⟩, hc⟩
    have hm := (h1 _ _).2 ⟨(Dict.get?_eq_some_iff hwf0).1 a, b⟩
    obtain ⟨k, hk, he⟩ := List.mem_iff_getElem.1 hm
    have hk2 : k < ls.length := by omega
    refine ⟨k, by simp; omega, ?_⟩
    have hc2 := hget k hk hk2
    simp only [List.get_eq_getElem, he] at hc2
    simp only [List.getElem_zip, List.getElem_map, he, Prod.mk.injEq, true_and]
    exact hc2.unique hc

/-- **C38.** The user's observation of a name wins over the variational sample of that name; a name
that is in neither is not given to the model. -/
theorem C38_observed_wins (v : VObj V L) (q : Option (State V D L)) (ho : v.observed.WF)
    (hi : v.vInputs.WF) (n : Name) :
    (v.given q).get? n = match v.observed.get? n with
      | some t => some (some t)
      | none => (v.vInputs.get? n).map (fun i => i.value q) := by
  have hget : ∀ {A B : Type} (f : A → B) (d : Dict Name A) (n : Name),
      Dict.get? (d.map (fun i => (i.1, f i.2))) n = (d.get? n).map f := by
    intro A B f d n
    induction d with
    | nil => rfl
    | cons a d ih =>
      obtain ⟨k, x⟩ := a
      simp only [List.map_cons, Dict.get?]
      by_cases hk : k = n
      · simp [hk]
      · simp [hk, ih]
  have hwf : ∀ {A B : Type} (f : A → B) (d : Dict Name A), d.WF →
      Dict.WF (d.map (fun i => (i.1, f i.2))) := by
    intro A B f d hd
    unfold Dict.WF Dict.keys at *
    simpa [Function.comp_def] using hd
  unfold VObj.given
  rw [Dict.C36_last_wins]
  · simp only [List.reverse_cons, List.reverse_nil, List.nil_append, List.cons_append,
      List.findSome?_cons, List.findSome?_nil]
    have e1 := hget (fun t : Tensor V => some t) v.observed n
    have e2 := hget (fun i : VIn V => i.value q) v.vInputs n
    rw [e1, e2]
    cases v.observed.get? n <;> cases v.vInputs.get? n <;> simp
  · intro d hd
    simp only [List.mem_cons, List.not_mem_nil, or_false] at hd
    rcases hd with rfl | rfl
    · exact hwf (fun i : VIn V => i.value q) v.vInputs hi
    · exact hwf (fun t : Tensor V => some t) v.observed ho

/-- **C38**, partial.  Missing: a model node that is neither observed nor given a posterior should be refused; it stays
latent, see `C38_missing_posterior_accepted`.  In the model net built by the objective, a new stochastic node is observed at the user's
value for its name if there is one, else at the variational sample of that name, else it is latent.
The model function is any sequence of calls on a new net. -/
theorem C38_model_observes_partial {D' : Type} (menv : Env (Tensor V) D' L) (v : VObj V L)
    (q : Option (State V D L)) (ho : v.observed.WF) (hi : v.vInputs.WF)
    (hval : ∀ n i, v.vInputs.get? n = some i → (i.value q).isSome)
    (m : Option (LogJoint L)) (ops : List (Op (Tensor V) D' L)) (n : Name) (d : D')
    (r : Ref (Tensor V))
    (h : (step menv (hist menv (some (v.given q)) m [] ops) (.stochastic n d)).1 = .ok (.node r)) :
    ∃ id o, r = .stoch id ∧
      (step menv (hist menv (some (v.given q)) m [] ops) (.stochastic n d)).2.heap[id]? = some o ∧
      (match v.observed.get? n, v.vInputs.get? n with
        | some t, _ => ∃ t', menv.checkObs d t = some t' ∧ o.observation = some t'
        | none, some i => ∃ t t', i.value q = some t ∧ menv.checkObs d t = some t' ∧
            o.observation = some t'
        | none, none => o.observation = none) := by
  obtain ⟨id, o, h1, h2, _, _, h5⟩ := C07_precedence menv (some (v.given q)) m [] ops n d r h
  refine ⟨id, o, h1, h2, ?_⟩
  unfold expectedObs at h5
  rw [Option.bind_some, C38_observed_wins v q ho hi n] at h5
  cases ha : v.observed.get? n with
  | some t => simpa [ha] using h5
  | none =>
    cases hb : v.vInputs.get? n with
    | none => simpa [ha, hb, Dict.get?] using h5
    | some i =>
      obtain ⟨t, ht⟩ := Option.isSome_iff_exists.1 (hval n i hb)
      simp only [ha, hb, Option.map_some, ht] at h5
      obtain ⟨t', a, b⟩ := h5
      exact ⟨t, t', ht, a, b⟩

/-- The side conditions of `C38_model_observes_partial` hold for every constructed objective. -/
theorem C38_construct_ok (env : Env V D L) (lo : Option (Dict Name (Option V)))
    (m : Option (LogJoint L)) (ob : Dict Name (Option V)) (ops : List (Op V D L))
    (observed : Dict Name (Tensor V)) (v : VObj V L) (q' : State V D L)
    (h : construct env (some (.net (hist env lo m ob ops))) none observed = .ok (v, some q')) :
    v.observed = observed ∧ v.vInputs.WF ∧
    ∀ n i, v.vInputs.get? n = some i → (i.value (some q')).isSome := by
  have h0 := h
  obtain ⟨ins, ls, q1, hu, hq, hacc, hF, hv⟩ := construct_spec env lo m ob ops observed v _ h
  cases hq
  obtain ⟨h1, h2⟩ := unobserved_spec _ _ _ hu
  have hwf0 := (hist_inv env lo m ob ops).wf
  have hwf : v.vInputs.WF := by
    subst hv
    unfold Dict.WF Dict.keys
    rw [List.map_map]
    exact h2.nodup hwf0
  refine ⟨by subst hv; rfl, hwf, ?_⟩
  intro n i hi
  rw [Dict.get?_eq_some_iff hwf] at hi
  subst hv
  obtain ⟨⟨n', id⟩, hm, he⟩ := List.mem_map.1 hi
  simp only [Prod.mk.injEq] at he
  obtain ⟨rfl, rfl⟩ := he
  obtain ⟨a, b⟩ := (h1 _ _).1 hm
  obtain ⟨t, ht⟩ := C38_latents_sampled env lo m ob ops observed _ q' h0 n' id
    ⟨(Dict.get?_eq_some_iff hwf0).2 a, b⟩
  rw [value_of_hasValue.2 ht]; rfl

/-- **C38.** Exactly one of `variational` and `latent` must be given; a `variational` that is not a
`BayesianNet` is a `TypeError`. -/
theorem C38_exactly_one (env : Env V D L) (va : Option (VArg V D L))
    (la : Option (Dict Name (Tensor V × L))) (observed : Dict Name (Tensor V)) :
    (va.isSome = la.isSome → construct env va la observed = .error .valueError) ∧
    (la = none → va = some .notNet → construct env va la observed = .error .typeError) ∧
    (∀ r, construct env va la observed = .ok r → (va.isSome ↔ la = none)) := by
  refine ⟨?_, ?_, ?_⟩
  · intro h; cases va <;> cases la <;> simp_all [construct]
  · rintro rfl rfl; rfl
  · intro r h; cases va <;> cases la <;> simp_all [construct]

/-- The deprecated `latent` dictionary is used as given (an empty one is refused). -/
theorem C38_latent_dict (env : Env V D L) (la : Dict Name (Tensor V × L))
    (observed : Dict Name (Tensor V)) :
    (la = [] → construct env none (some la) observed = .error .valueError) ∧
    (la ≠ [] → ∃ v, construct env none (some la) observed = .ok (v, none) ∧
      v.observed = observed ∧
      ∀ n, (v.vInputs.get? n).bind (fun i => i.value (none : Option (State V D L))) =
          (la.get? n).map Prod.fst ∧ v.vLogProbs.get? n = (la.get? n).map Prod.snd) := by
  refine ⟨?_, ?_⟩
  · rintro rfl; simp [construct]
  · intro hne
    refine ⟨_, by simp only [construct, if_neg hne]; rfl, rfl, ?_⟩
    intro n
    clear hne
    induction la with
    | nil => simp [Dict.get?]
    | cons a la ih =>
      obtain ⟨k, x⟩ := a
      simp only [List.map_cons, Dict.get?]
      by_cases hk : k = n
      · simp [hk, VIn.value]
      · simpa [hk] using ih

/-- The documented refusal ("a model node that is neither observed nor given a posterior is rejected
with ValueError") does not happen: the check never raises, whatever the model net is. -/
theorem C38_missing_posterior_accepted {W D' : Type}
    (observe : Dict Name (Option (Tensor V)) → Except Err (State W D' L)) (v : VObj V L)
    (q : Option (State V D L)) (b : State W D' L) (h : observe (v.given q) = .ok b) :
    getBn observe v q none = (.ok b, some b) := by
  have : validate b = .ok () := by
    unfold validate
    rw [if_neg]
    simp only [List.any_map, Bool.not_eq_true, List.any_eq_false, Function.comp]
    intro x _
    simp [PyObj.isStochastic]
  simp [getBn, h, this]

/-- The model net is built once: every later use of `bn` is the same net. -/
theorem C38_bn_cached {W D' : Type}
    (observe observe' : Dict Name (Option (Tensor V)) → Except Err (State W D' L)) (v : VObj V L)
    (q : Option (State V D L)) (b : State W D' L) (h : observe (v.given q) = .ok b) :
    getBn observe' v q (getBn observe v q none).2 = (.ok b, some b) := by
  rw [C38_missing_posterior_accepted observe v q b h]
  rfl

end ZhuSuan.VObj

namespace ZhuSuan.VObj
open ZhuSuan.BN
variable {V D L : Type} [AddCommGroup L]

/-- The elbo value (`axis=None`) is the log joint minus the sum of the recorded log probabilities. -/
theorem C38_elbo_value (v : VObj V L) (logJoint : L) :
    elbo logJoint v = logJoint - (v.vLogProbs.map Prod.snd).sum := by
  unfold elbo entropyTerm
  by_cases h : 0 < v.vLogProbs.length
  · simp [h, sub_eq_add_neg]
  · have : v.vLogProbs = [] := List.length_eq_zero_iff.1 (by omega)
    simp [this]

end ZhuSuan.VObj

namespace ZhuSuan.VObj
open ZhuSuan.BN

/-- A concrete case: the variational net has an unobserved node `z` and an observed node `w`; the
objective takes `z` only. -/
example : ∃ v q', construct (V := ℕ) (D := Unit) (L := ℤ)
    ⟨fun _ v => some v, fun _ => true, fun _ t => match t with
      | .ext v => some (v : ℤ)
      | .draw _ _ => some 7⟩
    (some (.net (hist ⟨fun _ v => some v, fun _ => true, fun _ t => match t with
      | .ext v => some (v : ℤ)
      | .draw _ _ => some 7⟩ (some [("w", some 5)]) none [] [.stochastic "w" (), .stochastic "z" ()])))
    none [("x", .ext 3)] = .ok (v, some q') ∧ v.vLogProbs = [("z", 7)] ∧
    v.vInputs.map (fun i => (i.1, i.2.value (some q'))) = [("z", some (.draw 1 0))] := by
  refine ⟨_, _, rfl, ?_, ?_⟩ <;> decide

end ZhuSuan.VObj
