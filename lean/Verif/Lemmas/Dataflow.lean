import Verif.Model.Dataflow
import Mathlib.Data.List.Sort
import Mathlib.Data.Fintype.Basic
import Mathlib.Data.List.Nodup

/-! # Graphs run in any order: values that do not depend on the order -/

set_option autoImplicit false

namespace ZhuSuan.Dataflow

open scoped Classical

variable {N X U : Type} {G : Graph N X}

theorem run_append (I : Interp G U) (st : Store N X U) (p q : List N) : I.run st (p ++ q) = I.run (I.run st p) q := by
  simp [Interp.run]

/-- Operations that do not run leave their output. -/
theorem out_notMem (I : Interp G U) (st : Store N X U) (p : List N) (m : N) (h : m ∉ p) : (I.run st p).out m = st.out m := by
  induction p generalizing st with
  | nil => rfl
  | cons n p ih =>
    simp only [List.mem_cons, not_or] at h
    show (I.run (I.run1 st n) p).out m = _
    rw [ih _ h.2]
    exact Function.update_of_ne h.1 _ _

/-- An output stays once it is computed. -/
theorem out_prefix (I : Interp G U) (st : Store N X U) (p q : List N) (h : (p ++ q).Nodup) (m : N) (hm : m ∈ p) :
    (I.run st (p ++ q)).out m = (I.run st p).out m := by
  rw [run_append]
  exact out_notMem I _ q m fun hq => (List.nodup_append.1 h).2.2 m hm m hq rfl

/-- The output of an operation, from the state in which it runs. -/
theorem out_at (I : Interp G U) (st : Store N X U) (p : List N) (n : N) (q : List N) (h : (p ++ n :: q).Nodup) :
    (I.run st (p ++ n :: q)).out n = I.eval n (I.run st p).out (I.run st p).var := by
  have e : p ++ n :: q = (p ++ [n]) ++ q := by simp
  rw [e] at h ⊢
  rw [out_prefix I st (p ++ [n]) q h n (by simp), run_append]
  show Function.update (I.run st p).out n _ n = _
  rw [Function.update_self]

/-- A variable whose assignment has not run has its old value. -/
theorem var_unwritten (I : Interp G U) (st : Store N X U) (p : List N) (x : X) (h : ∀ w ∈ p, G.writes w ≠ some x) :
    (I.run st p).var x = st.var x := by
  induction p generalizing st with
  | nil => rfl
  | cons n p ih =>
    show (I.run (I.run1 st n) p).var x = _
    rw [ih _ fun w hw => h w (by simp [hw])]
    have hn := h n (by simp)
    simp only [Interp.run1]
    cases hw : G.writes n with
    | none => rfl
    | some y => exact Function.update_of_ne (fun e => hn (by rw [hw, e])) _ _

/-- A variable whose only assignment has run has the value assigned. -/
theorem var_written (I : Interp G U) (st : Store N X U) (hu : ∀ a b x, G.writes a = some x → G.writes b = some x → a = b)
    (p : List N) (hp : p.Nodup) (x : X) (w : N) (hw : w ∈ p) (hx : G.writes w = some x) :
    (I.run st p).var x = (I.run st p).out w := by
  obtain ⟨a, b, rfl⟩ := List.append_of_mem hw
  have e : a ++ w :: b = (a ++ [w]) ++ b := by simp
  have hb : w ∉ b := fun hb => by
    have := (List.nodup_append.1 hp).2.1
    exact (List.nodup_cons.1 this).1 hb
  rw [e] at hp ⊢
  rw [out_prefix I st _ _ hp w (by simp), run_append I st (a ++ [w]) b]
  rw [var_unwritten I _ b x fun w' hw' hx' => hb (hu w w' x hx hx' ▸ hw')]
  rw [run_append]
  show (I.run1 (I.run st a) w).var x = (I.run1 (I.run st a) w).out w
  simp only [Interp.run1, hx, Function.update_self]

/-- A part that has run is closed under what comes before. -/
theorem Graph.Order.closed {l : List N} (hl : G.Order l) (p q : List N) (e : l = p ++ q) (a b : N) (h : G.Before a b) (hb : b ∈ p) :
    a ∈ p := by
  have one : ∀ a b, a ∈ G.deps b → b ∈ p → a ∈ p := by
    intro a b hab hb
    obtain ⟨p1, p2, rfl⟩ := List.append_of_mem hb
    have := hl.deps p1 b (p2 ++ q) (by rw [e]; simp) a hab
    simp [this]
  induction h with
  | single h => exact one _ _ h hb
  | tail _ h ih => exact ih (one _ _ h hb)

/-- The operations before `n` are those that run before it. -/
theorem Graph.Order.before {l : List N} (hl : G.Order l) (p : List N) (n : N) (q : List N) (e : l = p ++ n :: q) (a : N)
    (h : G.Before a n) : a ∈ p := by
  rcases Relation.TransGen.tail'_iff.1 h with ⟨b, hab, hbn⟩
  have hb : b ∈ p := hl.deps p n q e b hbn
  rcases Relation.reflTransGen_iff_eq_or_transGen.1 hab with rfl | hab
  · exact hb
  · exact hl.closed p (n :: q) e a b hab hb

/-- If every variable has at most one assignment, and every operation that reads it is ordered with respect to that assignment, then
all outputs and all variables are the same in all orders. -/
theorem deterministic (hu : ∀ a b x, G.writes a = some x → G.writes b = some x → a = b)
    (ho : ∀ r w x, x ∈ G.reads r → G.writes w = some x → r = w ∨ G.Before r w ∨ G.Before w r)
    (I : Interp G U) (st : Store N X U) (l l' : List N) (hl : G.Order l) (hl' : G.Order l') : I.run st l = I.run st l' := by
  have main : ∀ p' q', l' = p' ++ q' → ∀ m ∈ p', (I.run st p').out m = (I.run st l).out m := by
    intro p'
    induction p' using List.reverseRecOn with
    | nil => intro q' _ m hm; simp at hm
    | append_singleton p' n ih =>
      intro q' e' m hm
      have e2 : l' = p' ++ n :: q' := by rw [e']; simp
      have hnd : (p' ++ n :: q').Nodup := e2 ▸ hl'.nodup
      have hnd1 : (p' ++ [n]).Nodup := by
        have : ((p' ++ [n]) ++ q').Nodup := by simpa using hnd
        exact (List.nodup_append.1 this).1
      have ih' := ih (n :: q') e2
      rcases List.mem_append.1 hm with hm | hm
      · rw [out_prefix I st p' [n] hnd1 m hm]
        exact ih' m hm
      · obtain rfl : m = n := by simpa using hm
        rw [out_at I st p' m [] hnd1]
        obtain ⟨p, q, e⟩ := List.append_of_mem (hl.all m)
        have hndl : (p ++ m :: q).Nodup := e ▸ hl.nodup
        rw [e, out_at I st p m q hndl]
        have hm' : m ∉ p' := fun h => (List.nodup_append.1 hnd).2.2 m h m (by simp) rfl
        have hmp : m ∉ p := fun h => (List.nodup_append.1 hndl).2.2 m h m (by simp) rfl
        have same : ∀ a, a ∈ p → a ∈ p' → (I.run st p').out a = (I.run st p).out a := by
          intro a ha ha'
          rw [ih' a ha', e, out_prefix I st p (m :: q) hndl a ha]
        refine I.local_ m _ _ _ _ (fun a ha => ?_) (fun x hx => ?_)
        · exact same a (hl.deps p m q e a ha) (hl'.deps p' m q' e2 a ha)
        · by_cases hw : ∃ w, G.writes w = some x
          · obtain ⟨w, hw⟩ := hw
            have un : ∀ r : List N, w ∉ r → (I.run st r).var x = st.var x := fun r hr =>
              var_unwritten I st r x fun w' hw' h' => hr (hu w w' x hw h' ▸ hw')
            rcases ho m w x hx hw with rfl | h | h
            · rw [un p' hm', un p hmp]
            · rw [un p' fun hc => hm' (hl'.closed p' (m :: q') e2 m w h hc), un p fun hc => hmp (hl.closed p (m :: q) e m w h hc)]
            · have h1 := hl'.before p' m q' e2 w h
              have h2 := hl.before p m q e w h
              rw [var_written I st hu p' (List.nodup_append.1 hnd).1 x w h1 hw,
                var_written I st hu p (List.nodup_append.1 hndl).1 x w h2 hw]
              exact same w h2 h1
          · rw [var_unwritten I st p' x fun w _ h => hw ⟨w, h⟩, var_unwritten I st p x fun w _ h => hw ⟨w, h⟩]
  have hout : (I.run st l).out = (I.run st l').out := funext fun m => (main l' [] (by simp) m (hl'.all m)).symm
  have hvar : (I.run st l).var = (I.run st l').var := by
    funext x
    by_cases hw : ∃ w, G.writes w = some x
    · obtain ⟨w, hw⟩ := hw
      rw [var_written I st hu l hl.nodup x w (hl.all w) hw, var_written I st hu l' hl'.nodup x w (hl'.all w) hw, hout]
    · rw [var_unwritten I st l x fun w _ h => hw ⟨w, h⟩, var_unwritten I st l' x fun w _ h => hw ⟨w, h⟩]
  calc I.run st l = ⟨(I.run st l).out, (I.run st l).var⟩ := rfl
    _ = ⟨(I.run st l').out, (I.run st l').var⟩ := by rw [hout, hvar]
    _ = I.run st l' := rfl

/-- Sorting the operations by a rank that grows along the inputs gives an order. -/
theorem exists_order [Fintype N] (rank : N → ℕ) (h : ∀ m n, m ∈ G.deps n → rank m < rank n) :
    ∃ l, G.Order l ∧ ∀ p n q, l = p ++ n :: q → ∀ m, rank m < rank n → m ∈ p := by
  let le : N → N → Bool := fun a b => decide (rank a ≤ rank b)
  let l := (Finset.univ : Finset N).toList.mergeSort le
  have hperm : l.Perm (Finset.univ : Finset N).toList := List.mergeSort_perm _ _
  have hs : l.Pairwise fun a b => rank a ≤ rank b := by
    have := List.pairwise_mergeSort (le := le) (by simp only [le, decide_eq_true_eq]; intro a b c; exact le_trans)
      (by simp only [le, Bool.or_eq_true, decide_eq_true_eq]; intro a b; exact le_total _ _) (Finset.univ : Finset N).toList
    refine this.imp ?_
    intro a b h
    simpa [le] using h
  have hall : ∀ n, n ∈ l := fun n => hperm.mem_iff.2 (by simp)
  have key : ∀ p n q, l = p ++ n :: q → ∀ m, rank m < rank n → m ∈ p := by
    intro p n q e m hm
    have hml := hall m
    rw [e] at hml hs
    rcases List.mem_append.1 hml with h1 | h1
    · exact h1
    · rcases List.mem_cons.1 h1 with rfl | h2
      · exact absurd hm (lt_irrefl _)
      · have := (List.pairwise_cons.1 (List.pairwise_append.1 hs).2.1).1 m h2
        omega
  exact ⟨l, ⟨hperm.nodup_iff.2 (Finset.nodup_toList _), hall, fun p n q e m hm => key p n q e m (h m n hm)⟩, key⟩

/-- The output of an operation from the final outputs of its inputs. -/
theorem out_final (I : Interp G U) (st : Store N X U) (p : List N) (n : N) (q : List N)
    (hl : G.Order (p ++ n :: q)) :
    (I.run st (p ++ n :: q)).out n = I.eval n (I.run st (p ++ n :: q)).out (I.run st p).var := by
  rw [out_at I st p n q hl.nodup]
  exact I.local_ _ _ _ _ _ (fun m hm => (out_prefix I st p (n :: q) hl.nodup m (hl.deps p n q rfl m hm)).symm) fun _ _ => rfl

end ZhuSuan.Dataflow
