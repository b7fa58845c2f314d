import Verif.Spec.Graph

set_option linter.unusedSectionVars false

namespace ZhuSuan.Backward

variable {Op T : Type} [DecidableEq Op] [DecidableEq T]

/-- The ops pushed when `op` is first seen, in deque order. -/
def pushed (G : Graph Op T) (cut : List T) (op : Op) : List Op :=
  G.controlInputs op ++ ((G.inputs op).filter (fun t => t ∉ cut)).map G.opOf

theorem foldl_cons_reverse (l q : List Op) : l.reverse.foldl (fun q p => p :: q) q = l ++ q := by
  induction l with
  | nil => rfl
  | cons a l ih => simp [List.foldl_append, ih]

theorem pushControl_eq (G : Graph Op T) (op : Op) (q : List Op) :
    pushControl G op q = G.controlInputs op ++ q := foldl_cons_reverse _ _

theorem pushInputs_eq (G : Graph Op T) (cut : List T) (op : Op) (q : List Op) :
    pushInputs G cut op q = ((G.inputs op).filter (fun t => t ∉ cut)).map G.opOf ++ q := by
  unfold pushInputs
  induction G.inputs op with
  | nil => rfl
  | cons a l ih =>
    simp only [List.reverse_cons, List.foldl_append, List.foldl_cons, List.foldl_nil, ih]
    by_cases h : a ∈ cut <;> simp [h]

theorem push_eq (G : Graph Op T) (cut : List T) (op : Op) (q : List Op) :
    pushControl G op (pushInputs G cut op q) = pushed G cut op ++ q := by
  simp [pushControl_eq, pushInputs_eq, pushed]

theorem mem_pushed {G : Graph Op T} {cut : List T} {op p : Op} :
    p ∈ pushed G cut op ↔ DependsOn G cut op p := by
  simp [pushed, DependsOn, and_assoc]

theorem foldl_keys_spec (xs acc : List Op) (hacc : acc.Nodup) :
    (xs.foldl (fun acc x => if x ∈ acc then acc else acc ++ [x]) acc).Nodup ∧
    ∀ y, y ∈ xs.foldl (fun acc x => if x ∈ acc then acc else acc ++ [x]) acc ↔
      y ∈ acc ∨ y ∈ xs := by
  induction xs generalizing acc with
  | nil => simp [hacc]
  | cons a l ih =>
    simp only [List.foldl_cons]
    by_cases h : a ∈ acc
    · simp only [h, if_true]
      refine ⟨(ih acc hacc).1, fun y => ?_⟩
      rw [(ih acc hacc).2]
      constructor
      · rintro (h1 | h1) <;> simp [h1]
      · rintro (h1 | h1)
        · exact .inl h1
        · rcases List.mem_cons.1 h1 with rfl | h2
          · exact .inl h
          · exact .inr h2
    · simp only [h, if_false]
      have hn : (acc ++ [a]).Nodup := by
        rw [List.nodup_append]
        refine ⟨hacc, by simp, ?_⟩
        intro x hx y hy hxy
        simp only [List.mem_singleton] at hy
        exact h (hy ▸ hxy ▸ hx)
      refine ⟨(ih _ hn).1, fun y => ?_⟩
      rw [(ih _ hn).2]
      simp [or_assoc]

theorem orderedKeys_nodup (xs : List Op) : (orderedKeys xs).Nodup :=
  (foldl_keys_spec xs [] List.nodup_nil).1

theorem mem_orderedKeys {xs : List Op} {y : Op} : y ∈ orderedKeys xs ↔ y ∈ xs := by
  unfold orderedKeys
  simpa using (foldl_keys_spec xs [] List.nodup_nil).2 y

/-- Loop invariant for the set of results. -/
structure Inv (G : Graph Op T) (cut seeds : List T) (s : State Op) : Prop where
  nodup : s.ret.Nodup
  ret_done : ∀ x, x ∈ s.ret ↔ x ∈ s.done
  done_seen : ∀ x ∈ s.done, x ∈ s.seen
  q_needed : ∀ x ∈ s.q, Needed G cut seeds x
  seen_needed : ∀ x ∈ s.seen, Needed G cut seeds x
  seen_cover : ∀ x ∈ s.seen, x ∈ s.done ∨ x ∈ s.q
  closed : ∀ x ∈ s.seen, ∀ p, DependsOn G cut x p → p ∈ s.seen ∨ p ∈ s.q
  seeds_cover : ∀ t ∈ seeds, t ∉ cut → G.opOf t ∈ s.seen ∨ G.opOf t ∈ s.q

theorem Inv.init (G : Graph Op T) (seeds : List T) (ti : Option (List T)) :
    Inv G (ti.getD []) seeds (init G seeds ti) := by
  constructor <;> simp [Backward.init, mem_orderedKeys]
  · intro x t ht hc hx
    exact hx ▸ Needed.seed t ht hc
  · intro t ht hc
    exact ⟨t, ⟨ht, hc⟩, rfl⟩

theorem Inv.body {G : Graph Op T} {cut seeds : List T} {s : State Op} {op : Op} {rest : List Op}
    (h : Inv G cut seeds s) (hq : s.q = op :: rest) :
    Inv G cut seeds (body G cut s op rest) := by
  unfold Backward.body
  have hop : Needed G cut seeds op := h.q_needed op (by simp [hq])
  split
  · rename_i hs
    refine ⟨h.nodup, h.ret_done, ?_, ?_, ?_, ?_, ?_, ?_⟩
    · intro x hx; simp [h.done_seen x hx]
    · intro x hx
      simp only [push_eq, List.mem_append, mem_pushed] at hx
      rcases hx with hx | hx
      · exact Needed.dep op x hop hx
      · exact h.q_needed x (hq ▸ hx)
    · intro x hx
      rcases Finset.mem_insert.1 hx with rfl | hx
      · exact hop
      · exact h.seen_needed x hx
    · intro x hx
      simp only [push_eq, List.mem_append]
      rcases Finset.mem_insert.1 hx with rfl | hx
      · right; right; simp
      · rcases h.seen_cover x hx with h1 | h1
        · exact .inl h1
        · right; right; exact hq ▸ h1
    · intro x hx p hp
      simp only [push_eq, List.mem_append, mem_pushed]
      rcases Finset.mem_insert.1 hx with rfl | hx
      · exact .inr (.inl hp)
      · rcases h.closed x hx p hp with h1 | h1
        · left; simp [h1]
        · right; right; exact hq ▸ h1
    · intro t ht hc
      simp only [push_eq, List.mem_append]
      rcases h.seeds_cover t ht hc with h1 | h1
      · left; simp [h1]
      · right; right; exact hq ▸ h1
  · rename_i hs
    have hs' : op ∈ s.seen := by simpa using hs
    have key : ∀ x, x ∈ s.q → x ∈ s.seen ∨ x ∈ rest := by
      intro x hx
      rw [hq] at hx
      rcases List.mem_cons.1 hx with rfl | hx
      · exact .inl hs'
      · exact .inr hx
    split
    · rename_i hd
      refine ⟨?_, ?_, ?_, ?_, h.seen_needed, ?_, ?_, ?_⟩
      · rw [List.nodup_append]
        refine ⟨h.nodup, by simp, ?_⟩
        intro x hx y hy hxy
        simp only [List.mem_singleton] at hy
        subst hy; subst hxy
        exact hd ((h.ret_done _).1 hx)
      · intro x
        simp [h.ret_done x, or_comm]
      · intro x hx
        rcases Finset.mem_insert.1 hx with rfl | hx
        · exact hs'
        · exact h.done_seen x hx
      · intro x hx; exact h.q_needed x (by simp [hq]; exact .inr hx)
      · intro x hx
        rcases h.seen_cover x hx with h1 | h1
        · left; simp [h1]
        · rw [hq] at h1
          rcases List.mem_cons.1 h1 with rfl | h1
          · left; simp
          · exact .inr h1
      · intro x hx p hp
        rcases h.closed x hx p hp with h1 | h1
        · exact .inl h1
        · exact key p h1
      · intro t ht hc
        rcases h.seeds_cover t ht hc with h1 | h1
        · exact .inl h1
        · exact key _ h1
    · rename_i hd
      have hd' : op ∈ s.done := by simpa using hd
      refine ⟨h.nodup, h.ret_done, h.done_seen, ?_, h.seen_needed, ?_, ?_, ?_⟩
      · intro x hx; exact h.q_needed x (by simp [hq]; exact .inr hx)
      · intro x hx
        rcases h.seen_cover x hx with h1 | h1
        · exact .inl h1
        · rw [hq] at h1
          rcases List.mem_cons.1 h1 with rfl | h1
          · exact .inl hd'
          · exact .inr h1
      · intro x hx p hp
        rcases h.closed x hx p hp with h1 | h1
        · exact .inl h1
        · exact key p h1
      · intro t ht hc
        rcases h.seeds_cover t ht hc with h1 | h1
        · exact .inl h1
        · exact key _ h1

/-- Any property of states kept by the body holds in some final state whose `ret` is the result. -/
theorem loop_induct [Fintype Op] (G : Graph Op T) (cut : List T) (P : State Op → Prop)
    (hP : ∀ s op rest, s.q = op :: rest → P s → P (body G cut s op rest))
    (s : State Op) (h : P s) : ∃ s', P s' ∧ s'.q = [] ∧ loop G cut s = s'.ret := by
  fun_induction loop G cut s with
  | case1 s hq => exact ⟨s, h, hq, rfl⟩
  | case2 s op rest hq ih => exact ih (hP s op rest hq h)

theorem Inv.final {G : Graph Op T} {cut seeds : List T} {s : State Op}
    (h : Inv G cut seeds s) (hq : s.q = []) (op : Op) : op ∈ s.ret ↔ Needed G cut seeds op := by
  rw [h.ret_done]
  have hsd : ∀ x, x ∈ s.seen → x ∈ s.done := by
    intro x hx
    rcases h.seen_cover x hx with h1 | h1
    · exact h1
    · simp [hq] at h1
  constructor
  · intro hx; exact h.seen_needed op (h.done_seen op hx)
  · intro hn
    apply hsd
    induction hn with
    | seed t ht hc =>
      rcases h.seeds_cover t ht hc with h1 | h1
      · exact h1
      · simp [hq] at h1
    | dep x p _ hp ih =>
      rcases h.closed x ih p hp with h1 | h1
      · exact h1
      · simp [hq] at h1

/-- Loop invariant for the order of results on acyclic graphs. -/
structure OrdInv (G : Graph Op T) (cut : List T) (s : State Op) : Prop where
  ret_done : ∀ x, x ∈ s.ret ↔ x ∈ s.done
  done_seen : ∀ x ∈ s.done, x ∈ s.seen
  order : ∀ a op b, s.ret = a ++ op :: b → ∀ p, DependsOn G cut op p → p ∈ a
  before : ∀ a op b, s.q = a ++ op :: b → op ∈ s.seen → op ∉ s.done →
    ∀ p, DependsOn G cut op p → p ∈ s.done ∨ p ∈ a
  active : ∀ op, op ∈ s.seen → op ∉ s.done → ∃ a b, s.q = a ++ op :: b ∧
    ∀ x ∈ a, Relation.TransGen (DependsOn G cut) op x

theorem OrdInv.init (G : Graph Op T) (seeds : List T) (ti : Option (List T)) :
    OrdInv G (ti.getD []) (init G seeds ti) := by
  constructor <;> simp [Backward.init]

theorem append_split {l m a b : List Op} {x : Op} (h : l ++ m = a ++ x :: b) :
    (∃ a', a = l ++ a' ∧ m = a' ++ x :: b) ∨ x ∈ l := by
  induction l generalizing a with
  | nil => left; exact ⟨a, by simp, by simpa using h⟩
  | cons c l ih =>
    cases a with
    | nil => right; simp at h; simp [h.1]
    | cons d a =>
      simp only [List.cons_append, List.cons.injEq] at h
      rcases ih h.2 with ⟨a', rfl, hm⟩ | hx
      · left; exact ⟨a', by simp [h.1], hm⟩
      · right; simp [hx]

theorem OrdInv.body {G : Graph Op T} {cut : List T} (hac : Acyclic G cut) {s : State Op} {op : Op}
    {rest : List Op} (h : OrdInv G cut s) (hq : s.q = op :: rest) :
    OrdInv G cut (body G cut s op rest) := by
  unfold Backward.body
  split
  · rename_i hs
    have top : ∀ y, y ∈ s.seen → y ∉ s.done → Relation.TransGen (DependsOn G cut) y op := by
      intro y hy hyd
      obtain ⟨a, b, hab, hreach⟩ := h.active y hy hyd
      cases a with
      | nil =>
        rw [hq] at hab; simp at hab
        exact absurd (hab.1 ▸ hy) hs
      | cons c a =>
        rw [hq] at hab; simp at hab
        exact hreach op (by simp [hab.1])
    refine ⟨h.ret_done, ?_, h.order, ?_, ?_⟩
    · intro x hx; simp [h.done_seen x hx]
    · intro a y b hab hy hyd p hp
      simp only [push_eq] at hab
      rcases append_split hab with ⟨a', rfl, ha'⟩ | hyl
      · by_cases hyo : y = op
        · subst hyo
          right; simp [mem_pushed, hp]
        · have hy' : y ∈ s.seen := by
            rcases Finset.mem_insert.1 hy with h1 | h1
            · exact absurd h1 hyo
            · exact h1
          rcases h.before a' y b (hq ▸ ha') hy' hyd p hp with h1 | h1
          · exact .inl h1
          · right; simp [h1]
      · exfalso
        rw [mem_pushed] at hyl
        rcases Finset.mem_insert.1 hy with rfl | h1
        · exact hac _ (Relation.TransGen.single hyl)
        · exact hac _ ((top y h1 hyd).tail hyl)
    · intro y hy hyd
      simp only [push_eq]
      by_cases hyo : y = op
      · subst hyo
        refine ⟨pushed G cut y, rest, rfl, ?_⟩
        intro x hx
        exact Relation.TransGen.single (mem_pushed.1 hx)
      · have hy' : y ∈ s.seen := by
          rcases Finset.mem_insert.1 hy with h1 | h1
          · exact absurd h1 hyo
          · exact h1
        obtain ⟨a, b, hab, hreach⟩ := h.active y hy' hyd
        refine ⟨pushed G cut op ++ a, b, by rw [← hq, hab]; simp, ?_⟩
        intro x hx
        rcases List.mem_append.1 hx with h1 | h1
        · exact (top y hy' hyd).tail (mem_pushed.1 h1)
        · exact hreach x h1
  · rename_i hs
    have hs' : op ∈ s.seen := by simpa using hs
    have act : ∀ y, y ∈ s.seen → y ∉ s.done → y ≠ op → ∃ a b, rest = a ++ y :: b ∧
        ∀ x ∈ a, Relation.TransGen (DependsOn G cut) y x := by
      intro y hy hyd hyo
      obtain ⟨a, b, hab, hreach⟩ := h.active y hy hyd
      cases a with
      | nil =>
        rw [hq] at hab; simp at hab
        exact absurd hab.1.symm hyo
      | cons c a =>
        rw [hq] at hab; simp at hab
        exact ⟨a, b, hab.2, fun x hx => hreach x (by simp [hx])⟩
    split
    · rename_i hd
      refine ⟨?_, ?_, ?_, ?_, ?_⟩
      · intro x; simp [h.ret_done x, or_comm]
      · intro x hx
        rcases Finset.mem_insert.1 hx with rfl | hx
        · exact hs'
        · exact h.done_seen x hx
      · intro a y b hab p hp
        rcases append_split hab with ⟨a', rfl, ha'⟩ | hyl
        · cases a' with
          | nil =>
            simp at ha'
            rcases h.before [] op rest hq hs' hd p (ha'.1 ▸ hp) with h1 | h1
            · simpa using (h.ret_done p).2 h1
            · simp at h1
          | cons c a' => simp at ha'
        · obtain ⟨u, v, huv⟩ := List.append_of_mem hyl
          -- locate `y` inside the old `ret`
          have : ∃ b', s.ret = a ++ y :: b' ∨ (a = s.ret) := by
            rcases List.append_eq_append_iff.1 hab with ⟨c, hc1, hc2⟩ | ⟨c, hc1, hc2⟩
            · cases c with
              | nil => simp at hc1; exact ⟨[], .inr hc1⟩
              | cons d c => simp at hc2
            · cases c with
              | nil => simp at hc1; exact ⟨[], .inr hc1.symm⟩
              | cons d c =>
                simp at hc2
                exact ⟨c, .inl (by rw [hc1, hc2.1])⟩
          obtain ⟨b', h1 | h1⟩ := this
          · exact h.order a y b' h1 p hp
          · subst h1
            exact (by
              have := h.order u y v huv p hp
              rw [huv]; simp [this])
      · intro a y b hab hy hyd p hp
        simp only [Finset.mem_insert, not_or] at hyd
        rcases h.before (op :: a) y b (by simpa [hq] using hab) hy hyd.2 p hp with h1 | h1
        · left; simp [h1]
        · rcases List.mem_cons.1 h1 with rfl | h1
          · left; simp
          · exact .inr h1
      · intro y hy hyd
        simp only [Finset.mem_insert, not_or] at hyd
        exact act y hy hyd.2 hyd.1
    · rename_i hd
      have hd' : op ∈ s.done := by simpa using hd
      refine ⟨h.ret_done, h.done_seen, h.order, ?_, ?_⟩
      · intro a y b hab hy hyd p hp
        rcases h.before (op :: a) y b (by simpa [hq] using hab) hy hyd p hp with h1 | h1
        · exact .inl h1
        · rcases List.mem_cons.1 h1 with rfl | h1
          · exact .inl hd'
          · exact .inr h1
      · intro y hy hyd
        exact act y hy hyd (fun hyo => hyd (hyo ▸ hd'))

end ZhuSuan.Backward
