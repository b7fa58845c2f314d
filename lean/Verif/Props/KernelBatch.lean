import Verif.Lemmas.BatchTensor
import Verif.Model.KernelBatch

/-!
# C68, continued: the kernel of the Gaussian process example on batches
-/

set_option autoImplicit false

namespace ZhuSuan.GP

open Shape Batch LogExp

theorem insertIdx_append {α : Type} (b l : List α) (k : ℕ) (a : α) : (b ++ l).insertIdx (b.length + k) a = b ++ l.insertIdx k a := by
  induction b with
  | nil => simp
  | cons x b ih => simp [Nat.succ_add, ih]

theorem eraseIdx_append {α : Type} (b l : List α) (k : ℕ) : (b ++ l).eraseIdx (b.length + k) = b ++ l.eraseIdx k := by
  induction b with
  | nil => simp
  | cons x b ih => simp [Nat.succ_add, ih]

theorem bcast_one_right (n : ℕ) : bcast [n] [1] = some [n] := by
  by_cases h : n = 1 <;> simp [bcast, zipLongest, zipRest, dim, h]

theorem bcast_one_left (n : ℕ) : bcast [1] [n] = some [n] := by simp [bcast, zipLongest, zipRest, dim]

theorem expands_ones (m : ℕ) (S : List ℕ) (h : m ≤ S.length) : Expands (List.replicate m 1) S :=
  ⟨by simpa using h, fun i hi => Or.inl (by simp at hi; simp [hi])⟩

theorem bcast_length_eq {a b c : List ℕ} (h : bcast a b = some c) (hl : a.length = b.length) : c.length = a.length := by
  have key : ∀ a b c : List ℕ, zipLongest 1 dim a b = some c → a.length = b.length → c.length = a.length := by
    intro a
    induction a with
    | nil =>
      intro b c h hl
      obtain rfl : b = [] := List.length_eq_zero_iff.1 (by simpa using hl.symm)
      simp [zipLongest, zipRest] at h
      simp [h]
    | cons x a ih =>
      intro b c h hl
      cases b with
      | nil => simp at hl
      | cons y b =>
        simp only [zipLongest, Option.bind_eq_some_iff, Option.map_eq_some_iff] at h
        obtain ⟨d, -, c', h', rfl⟩ := h
        simp [ih b c' h' (by simpa using hl)]
  unfold bcast at h
  rw [Option.map_eq_some_iff] at h
  obtain ⟨c', h', rfl⟩ := h
  have := key _ _ _ h' (by simpa using hl)
  simpa using this

theorem rd {n : ℕ} (p : Fin n) : (if n = 1 then 0 else p.val) = p.val := by
  have := p.isLt
  split <;> omega

/-- **C68.** The kernel on batches: for `x` of shape `bx ++ [nx, c]` and `y` of shape `by ++ [ny, c]` with the same rank, whose batch shapes broadcast to
`b`, the result has shape `b ++ [nx, ny]`, and the matrix at each place of the batch is the kernel matrix of the points of `x` and `y` there. -/
theorem C68_kernel_batched {c nx ny : ℕ} {bx b' b : List ℕ} (scale x y : Tensor ℝ) (hs : scale.shape = [c]) (hx : x.shape = bx ++ [nx, c])
    (hy : y.shape = b' ++ [ny, c]) (hl : bx.length = b'.length) (hb : bcast bx b' = some b) :
    ∃ t, kernelT scale x y = some t ∧ t.shape = b ++ [nx, ny] ∧
      ∀ i, InBounds i b → ∀ (p : Fin nx) (q : Fin ny),
        t.val (i ++ [p.val, q.val]) = rbf (fun k : Fin c => scale.val [k.val]) (fun (p : Fin nx) k => x.val (projIdx bx i ++ [p.val, k.val]))
          (fun (q : Fin ny) k => y.val (projIdx b' i ++ [q.val, k.val])) p q := by
  have hrank : x.shape.length = bx.length + 2 := by simp [hx]
  have hbl : b.length = bx.length := bcast_length_eq hb hl
  -- the expanded tensors
  have e1 : Is (expandDims x (x.shape.length - 1)) (bx ++ [nx, 1, c]) fun idx => x.val (idx.eraseIdx (bx.length + 1)) := by
    rw [hrank]
    refine ⟨?_, fun _ _ => rfl⟩
    show x.shape.insertIdx (bx.length + 1) 1 = _
    rw [hx, insertIdx_append]
    rfl
  have e2 : Is (expandDims y (x.shape.length - 2)) (b' ++ [1, ny, c]) fun idx => y.val (idx.eraseIdx (b'.length + 0)) := by
    rw [hrank]
    refine ⟨?_, fun _ _ => by show y.val _ = _; rw [← hl]; rfl⟩
    show y.shape.insertIdx (bx.length + 0) 1 = _
    rw [hy, hl, insertIdx_append]
    rfl
  have e3 : ∃ ks, reshape scale (List.replicate x.shape.length 1 ++ [scale.shape.prod]) = some ks ∧
      Is ks (List.replicate (bx.length + 2) 1 ++ [c]) fun idx => scale.val [idx.getLastD 0] := by
    rw [hrank, hs, show ([c] : List ℕ).prod = c by simp]
    unfold reshape
    rw [if_pos (by simp [hs])]
    refine ⟨_, rfl, rfl, fun idx hi => ?_⟩
    obtain ⟨a, k, rfl, ha, hk⟩ := inBounds_snoc_elim hi
    have hr : ravel (List.replicate (bx.length + 2) 1 ++ [c]) (a ++ [k]) = k := by
      rw [ravel_snoc ha]
      have := ravel_lt ha
      rw [show (List.replicate (bx.length + 2) 1).prod = 1 by simp] at this
      have h0 : ravel (List.replicate (bx.length + 2) 1) a = 0 := by omega
      rw [h0]; omega
    show scale.val (unravel scale.shape _) = _
    rw [hr, hs]
    simp [unravel]
  obtain ⟨ks, hks, iks⟩ := e3
  have bc3 : bcast [nx, 1, c] [1, ny, c] = some [nx, ny, c] :=
    bcast_append (b := [nx]) (c := [1]) (u := [1, c]) (v := [ny, c]) rfl (bcast_one_right nx)
      (bcast_append (b := [1]) (c := [ny]) (u := [c]) (v := [c]) rfl (bcast_one_left ny) (bcast_self _))
  obtain ⟨d, hd, id⟩ := is_map2 (fun a b : ℝ => a - b) e1 e2 (bcast_append rfl hb bc3)
  have isq := is_mapT (fun a : ℝ => a ^ 2) id
  have bcs : bcast (b ++ [nx, ny, c]) (List.replicate (bx.length + 2) 1 ++ [c]) = some (b ++ [nx, ny, c]) := by
    have h1 : bcast (b ++ [nx, ny]) (List.replicate (bx.length + 2) 1) = some (b ++ [nx, ny]) :=
      bcast_eq_of_expands' (expands_ones _ _ (by simp [hbl]))
    have := bcast_append (u := [c]) (v := [c]) rfl h1 (bcast_self _)
    simpa using this
  obtain ⟨r, hr, ir⟩ := is_map2 (fun a b : ℝ => a / b) isq iks bcs
  have ir' := ir
  rw [show b ++ [nx, ny, c] = (b ++ [nx, ny]) ++ [c] by simp] at ir'
  obtain ⟨s, hs', is⟩ := is_reduceRow sumRow ir'
  refine ⟨mapT (fun a => Real.exp (-a / 2)) s, ?_, is.1, ?_⟩
  · unfold kernelT
    have hg : ¬(x.shape.length < 2 ∨ x.shape.length ≠ y.shape.length) := by
      rw [hx, hy]
      simp [hl]
    rw [if_neg hg]
    simp only [hks, hd, hr, hs', Option.bind_eq_bind, Option.bind_some]
    rfl
  · intro i hi p q
    have hip := inBounds_snoc2 hi p.isLt q.isLt
    show Real.exp (-(s.val (i ++ [p.val, q.val])) / 2) = _
    rw [is.2 _ hip]
    show _ = Real.exp (-(∑ k : Fin c, _) / 2)
    unfold sumRow
    congr 3
    refine Finset.sum_congr rfl fun k _ => ?_
    have ebx : Expands bx b := (bcast_expands hb).1
    have eby : Expands b' b := (bcast_expands hb).2
    have hk3 : InBounds (i ++ [p.val, q.val, k.val]) (b ++ [nx, ny, c]) := by
      have := inBounds_snoc hip k.isLt
      simpa using this
    have p1 : projIdx (b ++ [nx, ny, c]) (i ++ [p.val, q.val, k.val]) = i ++ [p.val, q.val, k.val] := projIdx_self hk3
    have px : (projIdx (bx ++ [nx, 1, c]) (i ++ [p.val, q.val, k.val])).eraseIdx (bx.length + 1) = projIdx bx i ++ [p.val, k.val] := by
      have hlen : (projIdx bx i).length = bx.length := (inBounds_projIdx ebx hi).length
      rw [projIdx_append (by rw [hi.length]; exact ebx.1) (by simp), ← hlen, eraseIdx_append]
      show projIdx bx i ++ [if nx = 1 then 0 else p.val, if c = 1 then 0 else k.val] = _
      rw [rd p, rd k]
    have py : (projIdx (b' ++ [1, ny, c]) (i ++ [p.val, q.val, k.val])).eraseIdx (b'.length + 0) = projIdx b' i ++ [q.val, k.val] := by
      have hlen : (projIdx b' i).length = b'.length := (inBounds_projIdx eby hi).length
      rw [projIdx_append (by rw [hi.length]; exact eby.1) (by simp), ← hlen, eraseIdx_append]
      show projIdx b' i ++ [if ny = 1 then 0 else q.val, if c = 1 then 0 else k.val] = _
      rw [rd q, rd k]
    have pk : (projIdx (List.replicate (bx.length + 2) 1 ++ [c]) (i ++ [p.val, q.val, k.val])).getLastD 0 = k.val := by
      rw [show i ++ [p.val, q.val, k.val] = (i ++ [p.val, q.val]) ++ [k.val] by simp]
      rw [projIdx_append (v := [c]) (w := [k.val]) (by simp [hi.length, hbl]) rfl]
      show (_ ++ [if c = 1 then 0 else k.val]).getLastD 0 = _
      rw [rd k]
      simp
    simp only [List.append_assoc, List.cons_append, List.nil_append, p1, px, py, pk]

/-- **C68.** Tensors of different ranks, and tensors with fewer than two axes, are refused. -/
theorem C68_kernel_ranks (scale x y : Tensor ℝ) (h : x.shape.length < 2 ∨ x.shape.length ≠ y.shape.length) : kernelT scale x y = none :=
  if_pos h

/-- A batch of two matrices against one matrix with a batch axis of size 1. -/
example : ∃ t, kernelT ⟨[3], fun _ => 1⟩ ⟨[2, 4, 3], fun i => i.sum⟩ ⟨[1, 5, 3], fun i => i.sum⟩ = some t ∧ t.shape = [2, 4, 5] :=
  let ⟨t, h1, h2, _⟩ := C68_kernel_batched (bx := [2]) (b' := [1]) (b := [2]) ⟨[3], fun _ => (1 : ℝ)⟩ ⟨[2, 4, 3], fun i => (i.sum : ℝ)⟩
    ⟨[1, 5, 3], fun i => (i.sum : ℝ)⟩ rfl rfl rfl rfl (bcast_one_right 2)
  ⟨t, h1, h2⟩

end ZhuSuan.GP
