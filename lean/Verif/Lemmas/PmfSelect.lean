import Mathlib.Data.List.Perm.Basic
import Mathlib.Data.List.Basic
import Verif.Lemmas.Dict
import Verif.Model.Pmf

/-!
# The tables of ratings and the selection of a chunk
-/

set_option autoImplicit false

namespace ZhuSuan.Pmf

variable {α : Type}

/-- A table with one list for each number below `n`: the values of the ratings with that key. -/
def tab (n : ℕ) (key : Rating → ℕ) (val : Rating → α) (train : List Rating) : List (List α) :=
  (List.range n).map fun i => (train.filter fun t => key t = i).map val

theorem tab_nil (n : ℕ) (key : Rating → ℕ) (val : Rating → α) : tab n key val [] = .replicate n [] := by
  refine List.ext_getElem? fun i => ?_
  simp only [tab, List.filter_nil, List.map_nil, List.getElem?_map, List.getElem?_replicate]
  by_cases h : i < n
  · rw [List.getElem?_range h, if_pos h]; rfl
  · rw [List.getElem?_eq_none (by simpa using h), if_neg h]; rfl

theorem tab_get (n : ℕ) (key : Rating → ℕ) (val : Rating → α) (train : List Rating) (i : ℕ) :
    (tab n key val train)[i]? = if i < n then some ((train.filter fun t => key t = i).map val) else none := by
  simp only [tab, List.getElem?_map]
  by_cases h : i < n
  · rw [List.getElem?_range h, if_pos h]; rfl
  · rw [List.getElem?_eq_none (by simpa using h), if_neg h]; rfl

theorem appendAt_tab (n : ℕ) (key : Rating → ℕ) (val : Rating → α) (train : List Rating) (t : Rating) (h : key t < n) :
    appendAt (tab n key val train) (key t) (val t) = some (tab n key val (train ++ [t])) := by
  have hl : (tab n key val train).length = n := by simp [tab]
  rw [appendAt, if_pos (by omega)]
  congr 1
  refine List.ext_getElem? fun i => ?_
  rw [List.getElem?_modify, tab_get, tab_get]
  by_cases hi : i < n
  · by_cases hk : key t = i
    · simp [hi, hk]
    · simp [hi, hk]
  · simp [hi]

/-- The tables after the loop. -/
def tables (numUsers numMovies : ℕ) (train : List Rating) : Tables :=
  ⟨tab numUsers (·.1) (·.2.1) train, tab numUsers (·.1) (·.2.2) train, tab numMovies (·.2.1) (·.1) train,
    tab numMovies (·.2.1) (·.2.2) train⟩

theorem mapped_eq (numUsers numMovies : ℕ) (train : List Rating)
    (h : ∀ t ∈ train, t.1 < numUsers ∧ t.2.1 < numMovies) :
    mapped numUsers numMovies train = some (tables numUsers numMovies train) := by
  induction train using List.reverseRecOn with
  | nil => simp [mapped, tables, tab_nil]
  | append_singleton train t ih =>
    have h1 := ih fun t ht => h t (by simp [ht])
    obtain ⟨h2, h3⟩ := h t (by simp)
    rw [mapped, List.foldlM_append]
    rw [mapped] at h1
    rw [h1]
    simp only [List.foldlM_cons, List.foldlM_nil, Option.bind_eq_bind, Option.bind_some, Tables.add, tables]
    rw [appendAt_tab _ (fun t : Rating => t.1) (fun t => t.2.1) _ t h2,
      appendAt_tab _ (fun t : Rating => t.1) (fun t => t.2.2) _ t h2,
      appendAt_tab _ (fun t : Rating => t.2.1) (fun t => t.1) _ t h3,
      appendAt_tab _ (fun t : Rating => t.2.1) (fun t => t.2.2) _ t h3]
    rfl

/-! ## The index map -/

theorem get_foldl_set (sv : List ℕ) (hn : sv.Nodup) (v : ℕ) (k : ℕ) (d : Dict ℕ ℕ) :
    ((sv.zipIdx k).foldl (fun d p => d.set p.1 p.2) d).get? v =
      if v ∈ sv then some (k + sv.idxOf v) else d.get? v := by
  induction sv generalizing k d with
  | nil => simp
  | cons x sv ih =>
    rw [List.nodup_cons] at hn
    rw [List.zipIdx_cons, List.foldl_cons, ih hn.2]
    by_cases hv : v ∈ sv
    · have : x ≠ v := fun h => hn.1 (h ▸ hv)
      rw [if_pos hv, if_pos (by simp [hv]), List.idxOf_cons_ne _ this]
      congr 1; omega
    · rw [if_neg hv]
      by_cases hx : v = x
      · subst hx
        simp [Dict.get?_set]
      · rw [if_neg (by simp [hv, hx])]
        simp [Dict.get?_set, Ne.symm hx]

theorem get_indexMap (sv : List ℕ) (hn : sv.Nodup) (v : ℕ) (hv : v ∈ sv) : (indexMap sv).get? v = some (sv.idxOf v) := by
  rw [indexMap, get_foldl_set sv hn, if_pos hv, Nat.zero_add]

theorem appendIdx_eq (sv : List ℕ) (hn : sv.Nodup) (ssv lt : List ℕ) (h : ∀ v ∈ lt, v ∈ sv) :
    appendIdx (indexMap sv) ssv lt = ssv ++ lt.map fun v => sv.idxOf v := by
  induction lt generalizing ssv with
  | nil => simp [appendIdx]
  | cons v lt ih =>
    rw [appendIdx, get_indexMap sv hn v (h v (by simp))]
    simp only
    rw [ih _ fun v hv => h v (by simp [hv])]
    simp

/-! ## The selection -/

/-- The ratings of the chunk, in the order in which `select_from_corpus` goes through them. -/
def chunk (key : Rating → ℕ) (train : List Rating) (l k : ℕ) : List Rating :=
  (List.range k).flatMap fun i => train.filter fun t => key t = l + i

theorem mem_chunk (key : Rating → ℕ) (train : List Rating) (l k : ℕ) (t : Rating) :
    t ∈ chunk key train l k ↔ t ∈ train ∧ l ≤ key t ∧ key t < l + k := by
  simp only [chunk, List.mem_flatMap, List.mem_range, List.mem_filter, decide_eq_true_eq]
  constructor
  · rintro ⟨i, h1, h2, h3⟩
    exact ⟨h2, by omega, by omega⟩
  · rintro ⟨h1, h2, h3⟩
    exact ⟨key t - l, by omega, h1, by omega⟩

theorem chunk_succ (key : Rating → ℕ) (train : List Rating) (l k : ℕ) :
    chunk key train l (k + 1) = chunk key train l k ++ train.filter fun t => key t = l + k := by
  simp [chunk, List.range_succ]

theorem filter_succ (key : Rating → ℕ) (train : List Rating) (l k : ℕ) :
    ((train.filter fun t => l ≤ key t ∧ key t < l + k) ++ train.filter fun t => key t = l + k).Perm
      (train.filter fun t => l ≤ key t ∧ key t < l + (k + 1)) := by
  induction train with
  | nil => simp
  | cons t train ih =>
    by_cases h1 : key t = l + k
    · have e1 : ¬(l ≤ key t ∧ key t < l + k) := by omega
      have e2 : l ≤ key t ∧ key t < l + (k + 1) := by omega
      rw [List.filter_cons_of_neg (by simpa using e1), List.filter_cons_of_pos (by simpa using h1),
        List.filter_cons_of_pos (by simpa using e2)]
      exact (List.perm_middle).trans (ih.cons t)
    · by_cases h2 : l ≤ key t ∧ key t < l + k
      · have e2 : l ≤ key t ∧ key t < l + (k + 1) := by omega
        rw [List.filter_cons_of_pos (by simpa using h2), List.filter_cons_of_neg (by simpa using h1),
          List.filter_cons_of_pos (by simpa using e2)]
        exact ih.cons t
      · have e2 : ¬(l ≤ key t ∧ key t < l + (k + 1)) := by omega
        rw [List.filter_cons_of_neg (by simpa using h2), List.filter_cons_of_neg (by simpa using h1),
          List.filter_cons_of_neg (by simpa using e2)]
        exact ih

theorem chunk_perm (key : Rating → ℕ) (train : List Rating) (l k : ℕ) :
    (chunk key train l k).Perm (train.filter fun t => l ≤ key t ∧ key t < l + k) := by
  induction k with
  | zero =>
    have : (train.filter fun t => l ≤ key t ∧ key t < l + 0) = [] := by
      rw [List.filter_eq_nil_iff]
      intro t _
      simp
    rw [this]
    simp [chunk]
  | succ k ih =>
    rw [chunk_succ]
    exact (ih.append_right _).trans (filter_succ key train l k)

/-- What the loops of `select_from_corpus` compute on tables that belong to the ratings. -/
theorem select_eq (set : List ℕ → List ℕ) (hset : ∀ l, (set l).Nodup ∧ ∀ v, v ∈ set l ↔ v ∈ l) (n : ℕ)
    (key val : Rating → ℕ) (train : List Rating) (hb : ∀ t ∈ train, key t < n) (l r : ℕ) :
    let fed := chunk key train l (r - l)
    let sv := set (fed.map val)
    selectFromCorpus set l r (tab n key val train) (tab n key (·.2.2) train) =
      ⟨sv.length, sv, fed.map (·.2.2), fed.map fun t => key t - l, fed.map fun t => sv.idxOf (val t)⟩ := by
  intro fed sv
  have row : ∀ (β : Type) (f : Rating → β) (i : ℕ), (tab n key f train)[l + i]? = none ∧
      (train.filter fun t => key t = l + i) = [] ∨
      (tab n key f train)[l + i]? = some ((train.filter fun t => key t = l + i).map f) := by
    intro β f i
    rw [tab_get]
    by_cases h : l + i < n
    · exact Or.inr (if_pos h)
    · refine Or.inl ⟨if_neg h, ?_⟩
      rw [List.filter_eq_nil_iff]
      intro t ht
      have := hb t ht
      simp only [decide_eq_true_eq]
      omega
  have h1 : ∀ k, (List.range k).foldl (collect l (tab n key val train) (tab n key (·.2.2) train)) ([], []) =
      ((chunk key train l k).map val, (chunk key train l k).map (·.2.2)) := by
    intro k
    induction k with
    | zero => simp [chunk]
    | succ k ih =>
      rw [List.range_succ, List.foldl_append, ih, List.foldl_cons, List.foldl_nil, chunk_succ, collect]
      rcases row ℕ val k with ⟨e, e'⟩ | e
      · rw [e, e']; simp
      · rw [e]
        simp only
        rcases row ℝ (fun t => t.2.2) k with ⟨e2, e'⟩ | e2
        · rw [e2, e']; simp
        · rw [e2]; simp
  have h2 : ∀ k, k ≤ r - l → (List.range k).foldl (select l (tab n key val train) (indexMap sv)) ([], []) =
      ((chunk key train l k).map (fun t => key t - l), (chunk key train l k).map fun t => sv.idxOf (val t)) := by
    intro k hk
    induction k with
    | zero => simp [chunk]
    | succ k ih =>
      rw [List.range_succ, List.foldl_append, ih (by omega), List.foldl_cons, List.foldl_nil, chunk_succ, select]
      rcases row ℕ val k with ⟨e, e'⟩ | e
      · rw [e, e']; simp
      · rw [e]
        simp only
        rw [appendIdx_eq sv (hset _).1]
        · refine Prod.ext ?_ ?_
          · simp only [List.map_append, List.length_map]
            congr 1
            refine (List.eq_replicate_iff.2 ⟨by simp, fun b hb => ?_⟩).symm
            obtain ⟨t, ht, rfl⟩ := List.mem_map.1 hb
            have := (List.mem_filter.1 ht).2
            simp only [decide_eq_true_eq] at this
            omega
          · simp
        · intro v hv
          obtain ⟨t, ht, rfl⟩ := List.mem_map.1 hv
          obtain ⟨h3, h4⟩ := List.mem_filter.1 ht
          simp only [decide_eq_true_eq] at h4
          refine ((hset _).2 _).2 (List.mem_map.2 ⟨t, (mem_chunk _ _ _ _ _).2 ⟨h3, by omega, by omega⟩, rfl⟩)
  simp only [selectFromCorpus, h1]
  rw [h2 _ le_rfl]

end ZhuSuan.Pmf
