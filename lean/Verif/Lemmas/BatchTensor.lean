import Verif.Model.BatchLogProb
import Verif.Props.Shape
import Verif.Lemmas.TensorExpr

/-! What each tensor operation of `Model/BatchLogProb.lean` does to a tensor with known shape and entries. -/

set_option autoImplicit false

namespace ZhuSuan.Batch
open Shape LogExp Num

/-- `t` has shape `S` and entries `f`. -/
def Is {α : Type} (t : Tensor α) (S : List ℕ) (f : List ℕ → α) : Prop :=
  t.shape = S ∧ ∀ idx, InBounds idx S → t.val idx = f idx

theorem Is.congr {α : Type} {t : Tensor α} {S : List ℕ} {f g : List ℕ → α} (h : Is t S f)
    (hfg : ∀ idx, InBounds idx S → f idx = g idx) : Is t S g :=
  ⟨h.1, fun idx hi => (h.2 idx hi).trans (hfg idx hi)⟩

theorem is_self {α : Type} (t : Tensor α) : Is t t.shape t.val := ⟨rfl, fun _ _ => rfl⟩

theorem inBounds_append {a b s t : List ℕ} (h : InBounds a s) (h' : InBounds b t) : InBounds (a ++ b) (s ++ t) :=
  List.rel_append h h'

theorem inBounds_snoc {a s : List ℕ} {i k : ℕ} (h : InBounds a s) (hi : i < k) : InBounds (a ++ [i]) (s ++ [k]) :=
  inBounds_append h (.cons hi .nil)

theorem inBounds_snoc2 {a s : List ℕ} {i j k l : ℕ} (h : InBounds a s) (hi : i < k) (hj : j < l) :
    InBounds (a ++ [i, j]) (s ++ [k, l]) :=
  inBounds_append h (.cons hi (.cons hj .nil))

/-- An index of a shape with a last axis. -/
theorem inBounds_snoc_elim {idx s : List ℕ} {k : ℕ} (h : InBounds idx (s ++ [k])) :
    ∃ a i, idx = a ++ [i] ∧ InBounds a s ∧ i < k := by
  have h' : List.Forall₂ (· < ·) idx.reverse (k :: s.reverse) := by
    have := h.reverse
    simpa using this
  match hr : idx.reverse, h' with
  | i :: r, .cons h1 h2 =>
    refine ⟨r.reverse, i, ?_, ?_, h1⟩
    · have := congrArg List.reverse hr
      simpa using this
    · have h3 : List.Forall₂ (· < ·) r.reverse s.reverse.reverse := List.rel_reverse h2
      rw [List.reverse_reverse] at h3
      exact h3

theorem inBounds_snoc2_elim {idx s : List ℕ} {k l : ℕ} (h : InBounds idx (s ++ [k, l])) :
    ∃ a i j, idx = a ++ [i, j] ∧ InBounds a s ∧ i < k ∧ j < l := by
  have h0 : InBounds idx ((s ++ [k]) ++ [l]) := by simpa using h
  obtain ⟨a, j, rfl, h1, h2⟩ := inBounds_snoc_elim h0
  obtain ⟨a, i, rfl, h3, h4⟩ := inBounds_snoc_elim h1
  exact ⟨a, i, j, by simp, h3, h4, h2⟩

theorem bcast_of_isBroadcast {a b c : List ℕ} (h : IsBroadcast a b c) : bcast a b = some c :=
  (C12_least_upper_bound a b c).2 h

theorem is_mapT {α β : Type} {t : Tensor α} {S : List ℕ} {f : List ℕ → α} (g : α → β) (h : Is t S f) :
    Is (mapT g t) S (fun idx => g (f idx)) :=
  ⟨h.1, fun idx hi => congrArg g (h.2 idx hi)⟩

theorem is_map2 {α β γ : Type} (op : α → β → γ) {x : Tensor α} {y : Tensor β} {a b c : List ℕ} {f : List ℕ → α}
    {g : List ℕ → β} (hx : Is x a f) (hy : Is y b g) (hc : bcast a b = some c) :
    ∃ t, map2 op x y = some t ∧ Is t c (fun idx => op (f (projIdx a idx)) (g (projIdx b idx))) := by
  unfold map2
  rw [hx.1, hy.1, hc]
  refine ⟨_, rfl, rfl, fun idx hi => ?_⟩
  simp only
  rw [hx.2 _ (inBounds_projIdx (bcast_expands hc).1 hi), hy.2 _ (inBounds_projIdx (bcast_expands hc).2 hi)]

theorem is_map2_same {α β γ : Type} (op : α → β → γ) {x : Tensor α} {y : Tensor β} {S : List ℕ} {f : List ℕ → α}
    {g : List ℕ → β} (hx : Is x S f) (hy : Is y S g) :
    ∃ t, map2 op x y = some t ∧ Is t S (fun idx => op (f idx) (g idx)) := by
  obtain ⟨t, h1, h2⟩ := is_map2 op hx hy (bcast_self S)
  exact ⟨t, h1, h2.congr fun idx hi => by rw [projIdx_self hi]⟩

theorem is_map2_left {α β γ : Type} (op : α → β → γ) {x : Tensor α} {y : Tensor β} {a S : List ℕ} {f : List ℕ → α}
    {g : List ℕ → β} (hx : Is x a f) (hy : Is y S g) (he : Expands a S) :
    ∃ t, map2 op x y = some t ∧ Is t S (fun idx => op (f (projIdx a idx)) (g idx)) := by
  obtain ⟨t, h1, h2⟩ := is_map2 op hx hy (bcast_eq_of_expands he)
  exact ⟨t, h1, h2.congr fun idx hi => by rw [projIdx_self hi]⟩

theorem is_map2_right {α β γ : Type} (op : α → β → γ) {x : Tensor α} {y : Tensor β} {b S : List ℕ} {f : List ℕ → α}
    {g : List ℕ → β} (hx : Is x S f) (hy : Is y b g) (he : Expands b S) :
    ∃ t, map2 op x y = some t ∧ Is t S (fun idx => op (f idx) (g (projIdx b idx))) := by
  obtain ⟨t, h1, h2⟩ := is_map2 op hx hy (bcast_eq_of_expands' he)
  exact ⟨t, h1, h2.congr fun idx hi => by rw [projIdx_self hi]⟩

/-- Both tensors broadcast, with static shapes that admit the result. -/
theorem is_meb (x y : STensor ℝ) {c : List ℕ} (hx : Admits x.static x.rt.shape) (hy : Admits y.static y.rt.shape)
    (hc : bcast x.rt.shape y.rt.shape = some c) :
    ∃ x' y', mebT x y = some (x', y') ∧ Is x'.rt c (fun idx => x.rt.val (projIdx x.rt.shape idx)) ∧
      Is y'.rt c (fun idx => y.rt.val (projIdx y.rt.shape idx)) ∧ Admits x'.static c ∧ Admits y'.static c := by
  have hex : ∃ x' y', explicitBroadcast x y = .ok (x', y') ∧
      Is x'.rt c (fun idx => x.rt.val (projIdx x.rt.shape idx)) ∧
      Is y'.rt c (fun idx => y.rt.val (projIdx y.rt.shape idx)) ∧ Admits x'.static c ∧ Admits y'.static c := by
    rcases explicitBroadcast_cases x y with h1 | h1 | ⟨x1, y1, c', h1, _, hc', sx, sy, tx, ty, vx, vy⟩
    · have := (sbcast_sound hx hy).1 h1.2
      rw [hc] at this; cases this
    · have := h1.2.2
      rw [hc] at this; cases this
    · rw [hc] at hc'
      obtain rfl := Option.some.inj hc'
      have a1 : Admits x1.static c := (sbcast_sound hx hy).2 _ _ tx hc
      exact ⟨x1, y1, h1, ⟨sx, fun idx _ => vx idx⟩, ⟨sy, fun idx _ => vy idx⟩, a1,
        (sbcast_sound hy a1).2 _ _ ty (bcast_eq_of_expands (bcast_expands hc).2)⟩
  by_cases hsame : x.static = y.static ∧ x.static.fullyDefined = true
  · obtain ⟨he, hf⟩ := hsame
    have ex := admits_fully hx hf
    have ey := admits_fully hy (he ▸ hf)
    have hsh : x.rt.shape = y.rt.shape := by
      have h0 := ex.symm.trans (he.trans ey)
      simp only [Option.some.injEq] at h0
      have := congrArg (List.map (fun o => Option.getD o 0)) h0
      simpa [Function.comp_def] using this
    have hm : maybeExplicitBroadcast x y = .ok (x, y) := by
      unfold maybeExplicitBroadcast
      have t1 : x.static.truthy = true := by rw [ex]; rfl
      have t2 : y.static.truthy = true := by rw [ey]; rfl
      have f2 : y.static.fullyDefined = true := he ▸ hf
      simp [t1, t2, hf, f2, he]
    have hcx : x.rt.shape = c := by
      rw [← hsh, bcast_self] at hc
      exact Option.some.inj hc
    refine ⟨x, y, by unfold mebT; rw [hm], ⟨hcx, fun idx hi => ?_⟩, ⟨hsh ▸ hcx, fun idx hi => ?_⟩, hcx ▸ hx,
      (hsh ▸ hcx : y.rt.shape = c) ▸ hy⟩
    · exact congrArg _ (projIdx_self (c := x.rt.shape) (by rw [hcx]; exact hi)).symm
    · exact congrArg _ (projIdx_self (c := y.rt.shape) (by rw [← hsh, hcx]; exact hi)).symm
  · have hm : maybeExplicitBroadcast x y = explicitBroadcast x y := by
      unfold maybeExplicitBroadcast
      by_cases h1 : (!(x.static.truthy && y.static.truthy)) = true
      · rw [if_pos h1]
      · rw [if_neg h1]
        by_cases h2 : x.static.map List.length ≠ y.static.map List.length
        · rw [if_pos h2]
        · rw [if_neg h2]
          by_cases h3 : (x.static.fullyDefined && y.static.fullyDefined) = true
          · rw [if_pos h3]
            by_cases h4 : x.static ≠ y.static
            · rw [if_pos h4]
            · exact absurd ⟨not_not.1 h4, (by simp at h3; exact h3.1)⟩ hsame
          · rw [if_neg h3]
    obtain ⟨x', y', h, rest⟩ := hex
    exact ⟨x', y', by unfold mebT; rw [hm, h], rest⟩

theorem is_reduceRow {α β : Type} (agg : {n : ℕ} → (Fin n → α) → β) {t : Tensor α} {S : List ℕ} {k : ℕ}
    {f : List ℕ → α} (h : Is t (S ++ [k]) f) :
    ∃ r, reduceRow agg t = some r ∧ Is r S (fun idx => agg fun i : Fin k => f (idx ++ [i.val])) := by
  unfold reduceRow
  rw [h.1]
  simp only [List.getLast?_append, List.getLast?_singleton, Option.some_or, Option.map_some,
    List.dropLast_concat]
  refine ⟨_, rfl, rfl, fun idx hi => ?_⟩
  simp only
  congr 1
  funext i
  exact h.2 _ (inBounds_snoc hi i.isLt)

theorem is_expandLast {α : Type} {t : Tensor α} {S : List ℕ} {f : List ℕ → α} (h : Is t S f) :
    Is (expandLast t) (S ++ [1]) (fun idx => f idx.dropLast) := by
  refine ⟨by simp [expandLast, h.1], fun idx hi => ?_⟩
  obtain ⟨a, i, rfl, h1, h2⟩ := inBounds_snoc_elim hi
  simp only [expandLast, List.dropLast_concat]
  exact h.2 _ h1

theorem is_squeezeLast {α : Type} {t : Tensor α} {S : List ℕ} {f : List ℕ → α} (h : Is t (S ++ [1]) f) :
    ∃ r, squeezeLast t = some r ∧ Is r S (fun idx => f (idx ++ [0])) := by
  unfold squeezeLast
  rw [h.1]
  simp only [List.getLast?_append, List.getLast?_singleton, Option.some_or, if_true, List.dropLast_concat]
  exact ⟨_, rfl, rfl, fun idx hi => h.2 _ (inBounds_snoc hi Nat.one_pos)⟩

theorem split2_append (b : List ℕ) (r c : ℕ) : split2 (b ++ [r, c]) = some (b, r, c) := by
  unfold split2
  have : (b ++ [r, c]).reverse = c :: r :: b.reverse := by simp
  rw [this]
  simp

theorem is_diagPart {α : Type} {t : Tensor α} {b : List ℕ} {r : ℕ} {f : List ℕ → α} (h : Is t (b ++ [r, r]) f) :
    ∃ d, diagPart t = some d ∧ Is d (b ++ [r]) (fun idx => f (idx ++ [idx.getLastD 0])) := by
  unfold diagPart
  rw [h.1, split2_append]
  simp only [Option.map_some, min_self]
  refine ⟨_, rfl, rfl, fun idx hi => ?_⟩
  obtain ⟨a, i, rfl, h1, h2⟩ := inBounds_snoc_elim hi
  simp only [List.getLastD_concat, List.append_assoc, List.cons_append, List.nil_append]
  exact h.2 _ (inBounds_snoc2 h1 h2 h2)

theorem dropLast_snoc2 {α : Type} (a : List α) (i j : α) : (a ++ [i, j]).dropLast = a ++ [i] := by
  have : a ++ [i, j] = (a ++ [i]) ++ [j] := by simp
  rw [this, List.dropLast_concat]

theorem getLastD_snoc2 {α : Type} (a : List α) (i j d : α) : (a ++ [i, j]).getLastD d = j := by
  have : a ++ [i, j] = (a ++ [i]) ++ [j] := by simp
  rw [this, List.getLastD_concat]

theorem is_transposeLast {α : Type} {t : Tensor α} {b : List ℕ} {r c : ℕ} {f : List ℕ → α}
    (h : Is t (b ++ [r, c]) f) :
    ∃ d, transposeLast t = some d ∧
      Is d (b ++ [c, r]) (fun idx => f (idx.dropLast.dropLast ++ [idx.getLastD 0, idx.dropLast.getLastD 0])) := by
  unfold transposeLast
  rw [h.1, split2_append]
  simp only [Option.map_some]
  refine ⟨_, rfl, rfl, fun idx hi => ?_⟩
  obtain ⟨a, i, j, rfl, h1, h2, h3⟩ := inBounds_snoc2_elim hi
  simp only [dropLast_snoc2, getLastD_snoc2, List.getLastD_concat, List.dropLast_concat]
  exact h.2 _ (inBounds_snoc2 h1 h3 h2)

theorem is_triSolveT {L y : Tensor ℝ} {b : List ℕ} {r c : ℕ} {f g : List ℕ → ℝ} (hL : Is L (b ++ [r, r]) f)
    (hy : Is y (b ++ [r, c]) g) :
    ∃ t, triSolveT L y = some t ∧ t.shape = b ++ [r, c] ∧
      ∀ a, InBounds a b → ∀ (i : Fin r) (j : ℕ), j < c → t.val (a ++ [i.val, j]) =
        triSolve (fun k l : Fin r => f (a ++ [k.val, l.val])) (fun k => g (a ++ [k.val, j])) i := by
  unfold triSolveT
  rw [hL.1, hy.1]
  simp only [split2_append, Option.bind_eq_bind, Option.bind_some, and_self, if_true]
  refine ⟨_, rfl, rfl, fun a ha i j hj => ?_⟩
  simp only [dropLast_snoc2, getLastD_snoc2, List.getLastD_concat, List.dropLast_concat, i.isLt, dite_true]
  have e1 : (fun k l : Fin r => L.val (a ++ [k.val, l.val])) = fun k l => f (a ++ [k.val, l.val]) := by
    funext k l
    exact hL.2 _ (inBounds_snoc2 ha k.isLt l.isLt)
  have e2 : (fun k : Fin r => y.val (a ++ [k.val, j])) = fun k => g (a ++ [k.val, j]) := by
    funext k
    exact hy.2 _ (inBounds_snoc2 ha k.isLt hj)
  rw [e1, e2]

/-! ### Row-major order -/

theorem ravel_lt {s idx : List ℕ} (h : InBounds idx s) : ravel s idx < s.prod := by
  induction h with
  | nil => simp [ravel]
  | @cons i d idx s h1 _ ih =>
    simp only [ravel, List.prod_cons]
    calc i * s.prod + ravel s idx < i * s.prod + s.prod := by omega
      _ = (i + 1) * s.prod := by ring
      _ ≤ d * s.prod := Nat.mul_le_mul_right _ h1

theorem unravel_ravel {s idx : List ℕ} (h : InBounds idx s) : unravel s (ravel s idx) = idx := by
  induction h with
  | nil => rfl
  | @cons i d idx s h1 h2 ih =>
    have hlt := ravel_lt h2
    simp only [ravel, unravel]
    rw [mul_comm, Nat.mul_add_div (by omega), Nat.div_eq_of_lt hlt, Nat.mul_add_mod, Nat.mod_eq_of_lt hlt, ih]
    simp

theorem inBounds_unravel {s : List ℕ} {k : ℕ} (h : k < s.prod) : InBounds (unravel s k) s := by
  induction s generalizing k with
  | nil => exact .nil
  | cons d s ih =>
    simp only [List.prod_cons] at h
    have hp : 0 < s.prod := by
      rcases Nat.eq_zero_or_pos s.prod with h0 | h0
      · rw [h0] at h; simp at h
      · exact h0
    refine .cons ?_ (ih (Nat.mod_lt _ hp))
    rw [Nat.div_lt_iff_lt_mul hp]
    exact h

theorem ravel_unravel {s : List ℕ} {k : ℕ} (h : k < s.prod) : ravel s (unravel s k) = k := by
  induction s generalizing k with
  | nil => simp at h; simp [ravel, h]
  | cons d s ih =>
    simp only [List.prod_cons] at h
    have hp : 0 < s.prod := by
      rcases Nat.eq_zero_or_pos s.prod with h0 | h0
      · rw [h0] at h; simp at h
      · exact h0
    simp only [ravel, unravel]
    rw [ih (Nat.mod_lt _ hp), mul_comm]
    exact Nat.div_add_mod k s.prod

theorem ravel_append {s idx t j : List ℕ} (h : InBounds idx s) :
    ravel (s ++ t) (idx ++ j) = ravel s idx * t.prod + ravel t j := by
  induction h with
  | nil => simp [ravel]
  | @cons i d idx s _ _ ih =>
    simp only [List.cons_append, ravel, ih, List.prod_append]
    ring

theorem ravel_snoc {s idx : List ℕ} {k i : ℕ} (h : InBounds idx s) : ravel (s ++ [k]) (idx ++ [i]) = ravel s idx * k + i := by
  rw [ravel_append h]
  simp [ravel]

theorem is_reshape {α : Type} {t : Tensor α} {S s : List ℕ} {f : List ℕ → α} (h : Is t S f) (hp : s.prod = S.prod) :
    ∃ r, reshape t s = some r ∧ Is r s (fun idx => f (unravel S (ravel s idx))) := by
  unfold reshape
  rw [h.1, if_pos hp]
  refine ⟨_, rfl, rfl, fun idx hi => ?_⟩
  exact h.2 _ (inBounds_unravel (by rw [← hp]; exact ravel_lt hi))

theorem is_reshapeRows {α : Type} {t : Tensor α} {S : List ℕ} {k : ℕ} {f : List ℕ → α} (h : Is t (S ++ [k]) f)
    (hk : k ≠ 0) :
    ∃ r, reshapeRows t k = some r ∧ r.shape = [S.prod, k] ∧
      ∀ idx, InBounds idx S → ∀ i, i < k → r.val [ravel S idx, i] = f (idx ++ [i]) := by
  unfold reshapeRows
  rw [if_neg hk, h.1]
  have hd : (S ++ [k]).prod / k = S.prod := by
    simp only [List.prod_append, List.prod_singleton]
    exact Nat.mul_div_cancel _ (Nat.pos_of_ne_zero hk)
  rw [hd]
  obtain ⟨r, h1, h2, h3⟩ := is_reshape (s := [S.prod, k]) h (by simp)
  refine ⟨r, h1, h2, fun idx hi i hik => ?_⟩
  rw [h3 _ (.cons (ravel_lt hi) (.cons hik .nil))]
  have : ravel [S.prod, k] [ravel S idx, i] = ravel (S ++ [k]) (idx ++ [i]) := by
    rw [ravel_snoc hi]
    simp [ravel]
  simp only
  rw [this, unravel_ravel (inBounds_snoc hi hik)]

/-! ### Broadcasting of shapes with common last axes -/

theorem zipLongest_append (u v b c : List ℕ) (h : u.length = v.length) :
    zipLongest 1 dim (u ++ b) (v ++ c) =
      (zipLongest 1 dim u v).bind fun w => (zipLongest 1 dim b c).map (w ++ ·) := by
  induction u generalizing v with
  | nil =>
    obtain rfl : v = [] := List.length_eq_zero_iff.1 (by simpa using h.symm)
    simp [zipLongest, zipRest]
  | cons x u ih =>
    cases v with
    | nil => simp at h
    | cons y v =>
      simp only [List.cons_append, zipLongest, ih v (by simpa using h)]
      cases dim x y with
      | none => rfl
      | some d =>
        simp only [Option.bind_some]
        cases zipLongest 1 dim u v with
        | none => rfl
        | some w => cases zipLongest 1 dim b c <;> rfl

theorem bcast_append {b c s u v w : List ℕ} (h : u.length = v.length) (hb : bcast b c = some s)
    (hu : bcast u v = some w) : bcast (b ++ u) (c ++ v) = some (s ++ w) := by
  unfold bcast
  rw [List.reverse_append, List.reverse_append, zipLongest_append _ _ _ _ (by simpa using h), bcast_some hb,
    bcast_some hu]
  simp

theorem projIdx_append {a v idx w : List ℕ} (hl : a.length ≤ idx.length) (h : w.length = v.length) :
    projIdx (a ++ v) (idx ++ w) = projIdx a idx ++ projIdx v w := by
  unfold projIdx
  have e1 : (idx ++ w).length - (a ++ v).length = idx.length - a.length := by simp; omega
  rw [e1, show w.length - v.length = 0 by omega, List.drop_zero]
  rw [List.drop_append_of_le_length (by omega), List.zipWith_append (by simp; omega)]

/-- The common last axes are read at the index itself. -/
theorem projIdx_tail {b S v idx j : List ℕ} (he : Expands b S) (hi : InBounds idx S) (hj : InBounds j v) :
    projIdx (b ++ v) (idx ++ j) = projIdx b idx ++ j := by
  rw [projIdx_append (by rw [hi.length]; exact he.1) hj.length, projIdx_self hj]

theorem expands_of_append {b S v : List ℕ} (h : Expands (b ++ v) (S ++ v)) : Expands b S := by
  refine ⟨by have := h.1; simp at this; exact this, fun i hi => ?_⟩
  have := h.2 (v.length + i) (by simp; omega)
  simpa [List.reverse_append, List.getElem?_append_right] using this

end ZhuSuan.Batch
