import Verif.Model.SgShared

/-!
# C61, several sampling operations of one instance

English: the documentation promises a resampling of the momenta every `n_iter_resample_v` calls "to the sampling operation".  When one instance made several sampling
operations, their calls are counted together.
-/
set_option autoImplicit false

namespace ZhuSuan.Sgmcmc

variable {Op : Type}

theorem runOps_length (n t : ℕ) (l : List Op) : (runOps n t l).length = l.length := by
  induction l generalizing t with
  | nil => rfl
  | cons a l ih => simp [runOps, ih]

theorem runOps_getElem? (n t : ℕ) (l : List Op) (k : ℕ) :
    (runOps n t l)[k]? = (l[k]?).map fun op => (op, resampleNow n (t + k)) := by
  induction l generalizing t k with
  | nil => rfl
  | cons a l ih =>
    cases k with
    | zero => rfl
    | succ k =>
      simp only [runOps, List.getElem?_cons_succ, ih]
      rw [show t + 1 + k = t + (k + 1) by omega]

/-- **C61** Run number `k` of a history of runs of the operations of one instance resamples the momenta of its operation exactly if `n` divides `k`, where runs
of the other operations count too. -/
theorem C61_shared (n : ℕ) (hn : n ≠ 0) (history : List Op) (k : ℕ) (op : Op) (b : Bool) (h : (runOps n 0 history)[k]? = some (op, b)) :
    history[k]? = some op ∧ (b = true ↔ n ∣ k) := by
  rw [runOps_getElem?, Option.map_eq_some_iff] at h
  obtain ⟨a, h1, h2⟩ := h
  obtain ⟨rfl, rfl⟩ := Prod.mk.inj h2
  exact ⟨h1, by simp [resampleNow, hn, Nat.dvd_iff_mod_eq_zero]⟩

theorem runOps_append (n t : ℕ) (l m : List Op) : runOps n t (l ++ m) = runOps n t l ++ runOps n (t + l.length) m := by
  induction l generalizing t with
  | nil => rfl
  | cons a l ih =>
    simp only [List.cons_append, runOps, ih, List.length_cons]
    rw [show t + 1 + l.length = t + (l.length + 1) by omega]

/-- **C61** The claim fails for more than one operation.  Let an instance with `n_iter_resample_v = n` make `n` operations, run in turn.  Then the first resamples its
momenta in every call and the others never do, however long the run. -/
theorem C61_shared_refuted (n : ℕ) (hn : n ≠ 0) (rounds : ℕ) (op : ℕ) (b : Bool)
    (h : (op, b) ∈ runOps n 0 (List.replicate rounds (List.range n)).flatten) : b = true ↔ op = 0 := by
  suffices H : ∀ t, n ∣ t → ∀ p ∈ runOps n t (List.replicate rounds (List.range n)).flatten, (p.2 = true ↔ p.1 = 0) from
    H 0 (dvd_zero n) _ h
  clear h
  induction rounds with
  | zero => intro t _ p hp; simp [runOps] at hp
  | succ r ih =>
    intro t ht p hp
    rw [List.replicate_succ, List.flatten_cons, runOps_append, List.length_range] at hp
    rcases List.mem_append.mp hp with hp | hp
    · obtain ⟨k, hk⟩ := List.getElem?_of_mem hp
      rw [runOps_getElem?, Option.map_eq_some_iff] at hk
      obtain ⟨a, h1, rfl⟩ := hk
      obtain ⟨hlt, rfl⟩ := List.getElem?_eq_some_iff.mp h1
      rw [List.length_range] at hlt
      simp only [List.getElem_range, resampleNow, hn, if_false, beq_iff_eq]
      rw [← Nat.dvd_iff_mod_eq_zero, Nat.dvd_add_right ht]
      exact ⟨fun hd => Nat.eq_zero_of_dvd_of_lt hd hlt, fun h0 => h0 ▸ dvd_zero n⟩
    · exact ih (t + n) (dvd_add ht dvd_rfl) p hp

/-- A concrete case: two operations run in turn with `n_iter_resample_v = 2`. -/
example : runOps 2 0 (List.replicate 2 (List.range 2)).flatten = [(0, true), (1, false), (0, true), (1, false)] := by decide

end ZhuSuan.Sgmcmc
