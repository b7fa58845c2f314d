import Verif.Model.SgInterp
import Verif.Props.SgGraph

/-!
# C62  The graph of an SGMCMC iteration computes the iteration

`Resume.step`, made of the updates that the other SGMCMC properties are about, is what the graphs compute in every order in which the
counter is read before it is incremented, for SGHMC and SGNHT, and for SGLD and PSGLD with one latent variable.
-/

set_option autoImplicit false

namespace ZhuSuan.SgGraph
open Dataflow Sgmcmc Resume

variable {V : Type} {I : V → Type} [∀ v, Fintype (I v)]

/-- The operations use only their inputs and the variables they read. -/
noncomputable def interp (m : Method) (w : Input I) : Interp (graph (V := V) (kind m)) (Val I) where
  eval := eval m w
  local_ := by
    intro op o o' s s' h h'
    change ∀ m ∈ deps _ op, _ at h
    change ∀ m ∈ reads _ op, _ at h'
    rcases m with lr | ⟨lr, decay, epsilon⟩ | ⟨lr, alpha, beta, n, _ | _⟩ | ⟨lr, a, tuneRate, n, _ | _, vector⟩ <;> cases op <;>
      simp only [deps, reads, kind, Kind.second, Kind.mom, Kind.friction, Kind.resample, Set.mem_singleton_iff,
        Set.mem_empty_iff_false, Set.mem_ofPred_eq, forall_eq_or_imp, forall_eq, false_imp_iff, implies_true, true_and,
        false_and, Bool.false_eq_true, Bool.true_eq_false, or_false, bne_iff_ne, reduceCtorEq, and_imp, exists_imp] at h h' <;>
      simp only [eval]
    case sghmc.false.oldV v =>
      have e1 := h'.1
      by_cases hn : n = 0
      · simp [oldMom, resampleNow, hn, e1]
      · rw [e1, h'.2 _ hn rfl]
    case sghmc.true.oldV v =>
      have e1 := h'.1
      by_cases hn : n = 0
      · simp [oldMom, resampleNow, hn, e1]
      · rw [e1, h'.2 _ hn rfl]
    case sgnht.false.oldV v =>
      have e1 := h'.1
      by_cases hn : n = 0
      · simp [oldMom, resampleNow, hn, e1]
      · rw [e1, h'.2 _ hn rfl]
    case sgnht.true.oldV v =>
      have e1 := h'.1
      by_cases hn : n = 0
      · simp [oldMom, resampleNow, hn, e1]
      · rw [e1, h'.2 _ hn rfl]
    all_goals simp_all

section Refine
variable (m : Method) (w : Input I) (st : Store (Op V) (Var V) (Val I)) (l : List (Op V))

/-- The output of every operation, from the final outputs and the variables before the run. -/
theorem out_eq (hk : (kind m).mom = true ∨ Subsingleton V) (hl : (graph (kind m)).Order l)
    (ht : (kind m).resample = true → ∀ v p q, l = p ++ .oldV v :: q → .incT ∉ p) (n : Op V) :
    ((interp m w).run st l).out n = eval m w n ((interp m w).run st l).out st.var := by
  obtain ⟨p, q, e⟩ := List.append_of_mem (hl.all n)
  have := out_final (interp m w) st p n q (e ▸ hl)
  rw [← e] at this
  rw [this]
  refine (interp m w).local_ n _ _ _ _ (fun _ _ => rfl) fun x hx => ?_
  by_cases hxt : x = .t
  · subst hxt
    refine var_unwritten _ st p _ fun u hu hux => ?_
    obtain rfl : u = .incT := writes_unique _ u .incT .t hux rfl
    change _ ∈ reads _ n at hx
    cases n <;> simp [reads] at hx
    case oldV v => exact ht hx.2 v p q e hu
    case incT =>
      have := hl.nodup
      rw [e] at this
      exact (List.nodup_append.1 this).2.2 _ hu _ (by simp) rfl
  · exact C62_graph_reads_partial _ hk _ st l p q n hl e x hx hxt

/-- C62, partial: for SGHMC and SGNHT, and for SGLD and PSGLD with one latent variable, every order in which the counter is read before
it is incremented computes the iteration.  Missing: the other orders, for which the claims are false (`C61_graph_refuted`,
`C62_graph_refuted`). -/
theorem C62_refines_partial (hk : (kind m).mom = true ∨ Subsingleton V) (hl : (graph (kind m)).Order l)
    (ht : (kind m).resample = true → ∀ v p q, l = p ++ .oldV v :: q → .incT ∉ p) :
    decode ((interp m w).run st l).var = step m (decode st.var) w := by
  have hO := out_eq m w st l hk hl ht
  have hW : ∀ u x, writes (kind m) u = some x → ((interp m w).run st l).var x = ((interp m w).run st l).out u :=
    fun u x hx => var_written _ st (writes_unique _) l hl.nodup x u (hl.all u) hx
  have hU : ∀ x, (∀ u, writes (kind m) u ≠ some x) → ((interp m w).run st l).var x = st.var x :=
    fun x hx => var_unwritten _ st l x fun u _ => hx u
  generalize (interp m w).run st l = r at hO hW hU ⊢
  obtain ⟨o, var⟩ := r
  simp only at hO hW hU ⊢
  have hQ : ∀ v, var (.q v) = o (.newQ v) := fun v => by rw [hW (.updateQ v) (.q v) rfl, hO]; rfl
  have hT : (var .t).count = (st.var .t).count + 1 := by rw [hW .incT .t rfl, hO]; rfl
  rcases m with lr | ⟨lr, decay, epsilon⟩ | ⟨lr, alpha, beta, n, _ | _⟩ | ⟨lr, a, tuneRate, n, _ | _, vector⟩
  · have h1 : ∀ v, var (.aux v) = st.var (.aux v) := fun v => hU _ fun u => by
      cases u <;> simp [writes, kind, Kind.mom, Kind.friction]
    have h2 : ∀ v, var (.mom v) = st.var (.mom v) := fun v => hU _ fun u => by
      cases u <;> simp [writes, kind, Kind.mom, Kind.friction]
    have h3 : ∀ v, var (.alpha v) = st.var (.alpha v) := fun v => hU _ fun u => by
      cases u <;> simp [writes, kind, Kind.mom, Kind.friction]
    have hg : ∀ v, (o (.grad v)).lat = w.grad (lists fun v => st.var (.q v)) := fun v => by rw [hO]; rfl
    have hq : (lists fun v => o (.newQ v)) = fun v => sgld lr w.grad w.z v (decode st.var).q := by
      funext v i
      simp only [lists]
      rw [hO]
      simp only [eval, hg]
      rfl
    simp only [decode, hQ, h1, h2, h3, hT, hq, step]
  · have h2 : ∀ v, var (.mom v) = st.var (.mom v) := fun v => hU _ fun u => by
      cases u <;> simp [writes, kind, Kind.mom, Kind.friction]
    have h3 : ∀ v, var (.alpha v) = st.var (.alpha v) := fun v => hU _ fun u => by
      cases u <;> simp [writes, kind, Kind.mom, Kind.friction]
    have h1 : ∀ v, var (.aux v) = o (.newAux v) := fun v => hW (.newAux v) (.aux v) (by simp [writes, kind])
    have hg : ∀ v, (o (.grad v)).lat = w.grad (lists fun v => st.var (.q v)) := fun v => by rw [hO]; rfl
    have ha : ∀ v, (o (.newAux v)).lat = fun u i => rmsAux decay (w.grad (lists fun v => st.var (.q v)) u i) ((st.var (.aux v)).lat u i) :=
      fun v => by rw [hO (.newAux v)]; simp only [eval, hg]
    have hq : ∀ v, (o (.newQ v)).lat v =
        (psgld lr decay epsilon w.grad w.z v fun v => ⟨(decode st.var).q v, (decode st.var).aux v⟩).q := by
      intro v
      funext i
      rw [hO]
      simp only [eval, hg, ha]
      rfl
    have hx : ∀ v, (o (.newAux v)).lat v =
        (psgld lr decay epsilon w.grad w.z v fun v => ⟨(decode st.var).q v, (decode st.var).aux v⟩).aux := by
      intro v
      rw [ha]
      rfl
    simp only [step]
    rw [← funext hq, ← funext hx]
    simp only [decode, hQ, h1, h2, h3, hT]
    rfl
  · have h1 : ∀ v, var (.aux v) = st.var (.aux v) := fun v => hU _ fun u => by
      cases u <;> simp [writes, kind, Kind.mom, Kind.friction]
    have h3 : ∀ v, var (.alpha v) = st.var (.alpha v) := fun v => hU _ fun u => by
      cases u <;> simp [writes, kind, Kind.mom, Kind.friction]
    have h2 : ∀ v, var (.mom v) = o (.newV v) := fun v => by
      rw [hW (.updateV v) (.mom v) (by simp [writes, kind, Kind.mom]), hO]; rfl
    have hold : ∀ v, (o (.oldV v)).lat = oldV lr (fun _ => resampleNow n (st.var .t).count) w.r (st.var (.mom v)).lat := fun v => by
      rw [hO]; rfl
    have hg : ∀ v, (o (.grad v)).lat = w.grad (lists fun v => st.var (.q v)) := fun v => by rw [hO]; rfl
    have hv : ∀ v, (o (.newV v)).lat v =
        (sghmc1 lr alpha beta w.grad (fun _ => resampleNow n (decode st.var).t) w.r w.z v fun v =>
          ⟨(decode st.var).q v, (decode st.var).v v⟩).v := by
      intro v
      funext i
      rw [hO]
      simp only [eval, hg, hold]
      rfl
    have hq : ∀ v, (o (.newQ v)).lat v =
        (sghmc1 lr alpha beta w.grad (fun _ => resampleNow n (decode st.var).t) w.r w.z v fun v =>
          ⟨(decode st.var).q v, (decode st.var).v v⟩).q := by
      intro v
      funext i
      have e := congrFun (hv v) i
      rw [hO]
      simp only [eval, e]
      rfl
    simp only [step, Bool.false_eq_true, if_false]
    rw [← funext hq, ← funext hv]
    simp only [decode, hQ, h1, h2, h3, hT]
    rfl
  · have h1 : ∀ v, var (.aux v) = st.var (.aux v) := fun v => hU _ fun u => by
      cases u <;> simp [writes, kind, Kind.mom, Kind.friction]
    have h3 : ∀ v, var (.alpha v) = st.var (.alpha v) := fun v => hU _ fun u => by
      cases u <;> simp [writes, kind, Kind.mom, Kind.friction]
    have h2 : ∀ v, var (.mom v) = o (.newV v) := fun v => by
      rw [hW (.updateV v) (.mom v) (by simp [writes, kind, Kind.mom]), hO]; rfl
    have hold : ∀ v, (o (.oldV v)).lat = oldV lr (fun _ => resampleNow n (st.var .t).count) w.r (st.var (.mom v)).lat := fun v => by
      rw [hO]; rfl
    have hq1 : ∀ v, (o (.q1 v)).lat = fun u i => (st.var (.q v)).lat u i + 0.5 * (o (.oldV v)).lat u i := fun v => by
      rw [hO (.q1 v)]; rfl
    have hg : ∀ v, (o (.grad v)).lat = w.grad (lists fun v => o (.q1 v)) := fun v => by rw [hO]; rfl
    have hv : ∀ v, (o (.newV v)).lat v =
        (sghmc2 lr alpha beta w.grad (fun _ => resampleNow n (decode st.var).t) w.r w.z v fun v =>
          ⟨(decode st.var).q v, (decode st.var).v v⟩).v := by
      intro v
      have hl1 : (lists fun v => o (.q1 v)) = fun v i => (decode st.var).q v i +
          0.5 * oldV lr (fun _ => resampleNow n (decode st.var).t) w.r (decode st.var).v v i := by
        funext v i; simp only [lists, hq1, hold]; rfl
      funext i
      rw [hO]
      simp only [eval, hg, hold, hl1]
      rfl
    have hq : ∀ v, (o (.newQ v)).lat v =
        (sghmc2 lr alpha beta w.grad (fun _ => resampleNow n (decode st.var).t) w.r w.z v fun v =>
          ⟨(decode st.var).q v, (decode st.var).v v⟩).q := by
      intro v
      funext i
      have e := congrFun (hv v) i
      rw [hO]
      simp only [eval, e, hq1, hold]
      rfl
    simp only [step, if_true]
    rw [← funext hq, ← funext hv]
    simp only [decode, hQ, h1, h2, h3, hT]
    rfl
  · have h1 : ∀ v, var (.aux v) = st.var (.aux v) := fun v => hU _ fun u => by
      cases u <;> simp [writes, kind, Kind.mom, Kind.friction]
    have h2 : ∀ v, var (.mom v) = o (.newV v) := fun v => by
      rw [hW (.updateV v) (.mom v) (by simp [writes, kind, Kind.mom]), hO]; rfl
    have h3 : ∀ v, var (.alpha v) = o (.newAlpha v) := fun v => by
      rw [hW (.updateAlpha v) (.alpha v) (by simp [writes, kind, Kind.friction]), hO]; rfl
    have hold : ∀ v, (o (.oldV v)).lat = oldV lr (fun _ => resampleNow n (st.var .t).count) w.r (st.var (.mom v)).lat := fun v => by
      rw [hO]; rfl
    have hg : ∀ v, (o (.grad v)).lat = w.grad (lists fun v => st.var (.q v)) := fun v => by rw [hO]; rfl
    have hv : ∀ v, (o (.newV v)).lat v =
        (sgnht1 lr a tuneRate vector w.grad (fun _ => resampleNow n (decode st.var).t) w.r w.z v fun v =>
          ⟨(decode st.var).q v, (decode st.var).v v, (decode st.var).alpha v⟩).v := by
      intro v
      funext i
      rw [hO]
      simp only [eval, hg, hold]
      rfl
    have hq : ∀ v, (o (.newQ v)).lat v =
        (sgnht1 lr a tuneRate vector w.grad (fun _ => resampleNow n (decode st.var).t) w.r w.z v fun v =>
          ⟨(decode st.var).q v, (decode st.var).v v, (decode st.var).alpha v⟩).q := by
      intro v
      funext i
      have e := congrFun (hv v) i
      rw [hO]
      simp only [eval, e]
      rfl
    have ha : ∀ v, (o (.newAlpha v)).lat v =
        (sgnht1 lr a tuneRate vector w.grad (fun _ => resampleNow n (decode st.var).t) w.r w.z v fun v =>
          ⟨(decode st.var).q v, (decode st.var).v v, (decode st.var).alpha v⟩).alpha := by
      intro v
      funext i
      rw [hO]
      simp only [eval, hv]
      rfl
    simp only [step, Bool.false_eq_true, if_false]
    rw [← funext hq, ← funext hv, ← funext ha]
    simp only [decode, hQ, h1, h2, h3, hT]
    rfl
  · have h1 : ∀ v, var (.aux v) = st.var (.aux v) := fun v => hU _ fun u => by
      cases u <;> simp [writes, kind, Kind.mom, Kind.friction]
    have h2 : ∀ v, var (.mom v) = o (.newV v) := fun v => by
      rw [hW (.updateV v) (.mom v) (by simp [writes, kind, Kind.mom]), hO]; rfl
    have h3 : ∀ v, var (.alpha v) = o (.newAlpha v) := fun v => by
      rw [hW (.updateAlpha v) (.alpha v) (by simp [writes, kind, Kind.friction]), hO]; rfl
    have hold : ∀ v, (o (.oldV v)).lat = oldV lr (fun _ => resampleNow n (st.var .t).count) w.r (st.var (.mom v)).lat := fun v => by
      rw [hO]; rfl
    have hq1 : ∀ v, (o (.q1 v)).lat = fun u i => (st.var (.q v)).lat u i + 0.5 * (o (.oldV v)).lat u i := fun v => by
      rw [hO (.q1 v)]; rfl
    have hg : ∀ v, (o (.grad v)).lat = w.grad (lists fun v => o (.q1 v)) := fun v => by rw [hO]; rfl
    have ha1 : ∀ v, (o (.alpha1 v)).lat = fun u i => (st.var (.alpha v)).lat u i +
        0.5 * tuneRate * (maybeMeanSq vector ((o (.oldV v)).lat u) i - lr) := fun v => by rw [hO (.alpha1 v)]; rfl
    have hv : ∀ v, (o (.newV v)).lat v =
        (sgnht2 lr a tuneRate vector w.grad (fun _ => resampleNow n (decode st.var).t) w.r w.z v fun v =>
          ⟨(decode st.var).q v, (decode st.var).v v, (decode st.var).alpha v⟩).v := by
      intro v
      have hl1 : (lists fun v => o (.q1 v)) = fun v i => (decode st.var).q v i +
          0.5 * oldV lr (fun _ => resampleNow n (decode st.var).t) w.r (decode st.var).v v i := by
        funext v i; simp only [lists, hq1, hold]; rfl
      funext i
      rw [hO]
      simp only [eval, ha1, hg, hold, hl1]
      rfl
    have hq : ∀ v, (o (.newQ v)).lat v =
        (sgnht2 lr a tuneRate vector w.grad (fun _ => resampleNow n (decode st.var).t) w.r w.z v fun v =>
          ⟨(decode st.var).q v, (decode st.var).v v, (decode st.var).alpha v⟩).q := by
      intro v
      funext i
      have e := congrFun (hv v) i
      rw [hO]
      simp only [eval, e, hq1, hold]
      rfl
    have ha : ∀ v, (o (.newAlpha v)).lat v =
        (sgnht2 lr a tuneRate vector w.grad (fun _ => resampleNow n (decode st.var).t) w.r w.z v fun v =>
          ⟨(decode st.var).q v, (decode st.var).v v, (decode st.var).alpha v⟩).alpha := by
      intro v
      funext i
      rw [hO]
      simp only [eval, hv, ha1, hold]
      rfl
    simp only [step, if_true]
    rw [← funext hq, ← funext hv, ← funext ha]
    simp only [decode, hQ, h1, h2, h3, hT]
    rfl

end Refine

/-- Such orders exist: for every sampler and finitely many latent variables. -/
theorem C62_graph_runs [Fintype V] (m : Method) :
    ∃ l, (graph (V := V) (kind m)).Order l ∧ ∀ v p q, l = p ++ .oldV v :: q → .incT ∉ p := by
  obtain ⟨l, hl, hr⟩ := exists_order (rank true) (rank_lt (V := V) true (kind m))
  refine ⟨l, hl, fun v p q e hp => ?_⟩
  obtain ⟨a, b, e2⟩ := List.append_of_mem hp
  have := hr a .incT (b ++ .oldV v :: q) (by rw [e, e2]; simp) (.oldV v) (by simp [rank])
  have hnd := hl.nodup
  rw [e] at hnd
  exact (List.nodup_append.1 hnd).2.2 (.oldV v) (by rw [e2]; simp [this]) (.oldV v) (by simp) rfl

/-- Second-order SGNHT with a friction per latent variable, two latent variables and momenta resampled every third iteration. -/
example (w : Input fun _ : Bool => Fin 2) (st : Store (Op Bool) (Var Bool) (Val fun _ : Bool => Fin 2)) :
    ∃ l, (graph (kind (.sgnht 0.01 1 0.1 3 true false))).Order l ∧
      decode ((interp (.sgnht 0.01 1 0.1 3 true false) w).run st l).var = step (.sgnht 0.01 1 0.1 3 true false) (decode st.var) w := by
  obtain ⟨l, hl, ht⟩ := C62_graph_runs (V := Bool) (.sgnht 0.01 1 0.1 3 true false)
  exact ⟨l, hl, C62_refines_partial _ w st l (.inl rfl) hl fun _ => ht⟩

end ZhuSuan.SgGraph
