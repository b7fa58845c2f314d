import Verif.Lemmas.DistShape

/-!
# C14, C15 (shapes), C16 (batch and value shapes)
-/

set_option autoImplicit false

namespace ZhuSuan.Shape
namespace Dist

theorem isBroadcast_iff {a b c : List ℕ} : IsBroadcast a b c ↔ bcast a b = some c :=
  (C12_least_upper_bound a b c).symm

theorem butLast_append (b v : List ℕ) : butLast (b ++ v) v.length = b := by
  unfold butLast; simp

/-- The static shapes are right about the run-time ones: `get_batch_shape` and `get_value_shape` never
exclude the actual shape, and never fail. -/
theorem C16_get_batch_shape (d : Dist) (b v : List ℕ) (hw : d.WF) (h : d.HasShape b v) :
    (∃ s, d.getBatch = some s ∧ Admits s b) ∧ Admits d.getValue v ∧
      d.batchDyn = some b ∧ d.valueDyn = some v := by
  have two : ∀ x y : P, x.WF → y.WF → IsBroadcast x.rt y.rt b →
      (∃ s, sbcast x.st y.st = some s ∧ Admits s b) ∧ bcast x.rt y.rt = some b := by
    intro x y hx hy hb
    rw [isBroadcast_iff] at hb
    obtain ⟨h1, h2⟩ := sbcast_sound hx hy
    cases hs : sbcast x.st y.st with
    | none => rw [h1 hs] at hb; cases hb
    | some s => exact ⟨⟨s, rfl, h2 s b hs hb⟩, hb⟩
  have last : ∀ (l : P) (k : ℕ), l.WF → l.rt = b ++ [k] →
      Admits (staticButLast l.st 1) b ∧ butLast l.rt 1 = b ∧
      Admits (some [intAt l.st (-1)]) [k] ∧
      (getShapeAt l.st l.rt (-1)).map (fun x => [x]) = some [k] := by
    intro l k hl hr
    refine ⟨?_, ?_, ?_, ?_⟩
    · have := admits_take hl 1
      rw [hr] at this; simpa using this
    · rw [hr]; exact butLast_append b [k]
    · exact .cons (intAt_admits hl (by rw [hr]; exact pyIndex_last b k)) .nil
    · rw [getShapeAt_last hl hr]; rfl
  have nilA : Admits (some []) [] := .nil
  cases d with
  | normal x y | foldNormal x y | uniform x y | gamma x y | beta x y | inverseGamma x y
  | laplace x y =>
    obtain ⟨hb, rfl⟩ := h
    obtain ⟨h1, h2⟩ := two x y hw.1 hw.2 hb
    exact ⟨h1, nilA, h2, rfl⟩
  | bernoulli l | poisson l | binomial l _ =>
    obtain ⟨rfl, rfl⟩ := h
    exact ⟨⟨_, rfl, hw⟩, nilA, rfl, rfl⟩
  | binConcrete t l =>
    obtain ⟨_, rfl, rfl⟩ := h
    exact ⟨⟨_, rfl, hw.2⟩, nilA, rfl, rfl⟩
  | categorical l =>
    obtain ⟨rfl, k, _, hr⟩ := h
    obtain ⟨h1, h2, _⟩ := last l k hw hr
    exact ⟨⟨_, rfl, h1⟩, nilA, congrArg some h2, rfl⟩
  | multinomial l _ | unnormalizedMultinomial l | onehot l | dirichlet l =>
    obtain ⟨k, _, rfl, hr⟩ := h
    obtain ⟨h1, h2, h3, h4⟩ := last l k hw hr
    exact ⟨⟨_, rfl, h1⟩, h3, congrArg some h2, h4⟩
  | expConcrete t l | concrete t l =>
    obtain ⟨_, k, rfl, hr⟩ := h
    obtain ⟨h1, h2, h3, h4⟩ := last l k hw.2 hr
    exact ⟨⟨_, rfl, h1⟩, h3, congrArg some h2, h4⟩
  | mvn m c =>
    obtain ⟨k, rfl, hr, _⟩ := h
    obtain ⟨h1, h2, h3, h4⟩ := last m k hw.1 hr
    exact ⟨⟨_, rfl, h1⟩, h3, congrArg some h2, h4⟩
  | matrixNormal m u w =>
    obtain ⟨r, c, rfl, hr, _, _⟩ := h
    have h1 := admits_take hw.1 2
    rw [hr] at h1
    have p2 := pyIndex_last2 b r c
    refine ⟨⟨_, rfl, by simpa using h1⟩, ?_, ?_, ?_⟩
    · exact .cons (intAt_admits hw.1 (by rw [hr]; exact p2.1))
        (.cons (intAt_admits hw.1 (by rw [hr]; exact p2.2)) .nil)
    · exact congrArg some (by rw [hr]; exact butLast_append b [r, c])
    · show (getShapeAt m.st m.rt (-2)).bind _ = _
      rw [C16_get_shape_at _ _ hw.1, C16_get_shape_at _ _ hw.1, hr, p2.1, p2.2]
      rfl

/-- `batch_shape` and `value_shape` are the documented shapes, whatever was known statically. -/
theorem C14_batch_value_shape (d : Dist) (b v : List ℕ) (hw : d.WF) (h : d.HasShape b v) :
    d.batchShape = some b ∧ d.valueShape = some v := by
  obtain ⟨⟨s, h1, h2⟩, h3, h4, h5⟩ := C16_get_batch_shape d b v hw h
  refine ⟨?_, ?_⟩
  · unfold batchShape
    rw [h1, h4, Option.bind_some, Option.map_some, C16_report_shape s b h2]
  · unfold valueShape
    rw [h5, Option.map_some, C16_report_shape _ v h3]

theorem locScale_spec {d : Dist} {b : List ℕ} (hb : d.batchShape = some b) {y x : List ℕ}
    (hy : Expands y b) (hx : Expands x b) (n : ℕ) :
    locScaleSample d (some y) (some x) n = some (n :: b) := by
  unfold locScaleSample
  rw [hb]
  simp only [Option.bind_some]
  rw [bcast_eq_of_expands' (hy.cons n), Option.bind_some, bcast_eq_of_expands' (hx.cons n)]

/-- `_sample(n)` has shape `[n] + batch_shape + value_shape`, for every distribution that can be
sampled. -/
theorem C14_sampleN (d : Dist) (b v : List ℕ) (hw : d.WF) (h : d.HasShape b v) (hs : d.Samplable)
    (n : ℕ) : d.sampleN n = some (n :: b ++ v) := by
  have hb := (C14_batch_value_shape d b v hw h).1
  cases d with
  | normal x y | foldNormal x y =>
    obtain ⟨h1, rfl⟩ := h
    rw [isBroadcast_iff] at h1
    simp only [sampleN, List.append_nil]
    exact locScale_spec hb (bcast_expands h1).2 (bcast_expands h1).1 n
  | uniform lo hi =>
    obtain ⟨h1, rfl⟩ := h
    rw [isBroadcast_iff] at h1
    simp only [sampleN, List.append_nil]
    rw [bcast_comm hi.rt lo.rt, h1]
    exact locScale_spec hb (expands_refl b) (bcast_expands h1).1 n
  | bernoulli l =>
    obtain ⟨rfl, rfl⟩ := h
    simp only [sampleN, List.append_nil]
    rw [hb, Option.bind_some, bcast_eq_of_expands' ((expands_refl _).cons n)]
  | poisson r =>
    obtain ⟨rfl, rfl⟩ := h
    simp [sampleN]
  | gamma x y | inverseGamma x y =>
    obtain ⟨h1, rfl⟩ := h
    rw [isBroadcast_iff] at h1
    simp [sampleN, h1]
  | beta x y =>
    obtain ⟨h1, rfl⟩ := h
    rw [isBroadcast_iff] at h1
    obtain ⟨x', y', e, e1, e2⟩ := meb_spec hw.1 hw.2 h1
    simp only [sampleN, e, Option.bind_some, e1, e2, bcast_self, List.append_nil]
  | laplace x y =>
    obtain ⟨h1, rfl⟩ := h
    rw [isBroadcast_iff] at h1
    simp only [sampleN, hb, Option.bind_some, List.append_nil]
    rw [bcast_eq_of_expands ((bcast_expands h1).2.cons n), Option.bind_some, bcast_self,
      Option.bind_some, bcast_eq_of_expands ((bcast_expands h1).1.cons n)]
  | binConcrete t l =>
    obtain ⟨ht, rfl, rfl⟩ := h
    simp only [sampleN, hb, Option.bind_some, List.append_nil, ht]
    rw [bcast_eq_of_expands ((expands_refl _).cons n), Option.bind_some,
      bcast_eq_of_expands' (expands_nil _)]
  | binomial l ne =>
    obtain ⟨rfl, rfl⟩ := h
    have hflat : (if l.st.map List.length = some 1 then l.rt else [l.rt.prod]) = [l.rt.prod] := by
      split_ifs with h1
      · have hl : Admits l.st l.rt := hw
        cases hst : l.st with
        | none => simp [hst] at h1
        | some s =>
          rw [hst] at hl h1
          have := List.Forall₂.length_eq hl
          simp only [Option.map_some, Option.some.injEq] at h1
          match hrt : l.rt, this.symm.trans h1 with
          | [x], _ => simp
      · rfl
    simp only [sampleN, hflat]
    simp only [List.singleton_append, categorical2, Nat.succ_ne_zero, if_false,
      Option.bind_some, transpose2, hb, reshapeTo]
    rw [if_pos (by simp [Nat.mul_left_comm, Nat.mul_assoc])]
    simp
  | categorical l =>
    obtain ⟨rfl, k, hk, hr⟩ := h
    obtain ⟨h1, h2⟩ := logitsFlat_spec hw hk hr
    simp only [sampleN, h1, Option.bind_some, categorical2, if_neg (Nat.pos_iff_ne_zero.1 hk),
      transpose2, List.append_nil]
    split_ifs with hst
    · match b, h2 hst with
      | [x], _ => simp
    · rw [hb, Option.bind_some, reshapeTo, if_pos (by simp)]
  | multinomial l ne =>
    obtain ⟨k, hk, rfl, hr⟩ := h
    obtain ⟨h1, _⟩ := logitsFlat_spec hw hk hr
    cases ne with
    | none => simp [Samplable] at hs
    | some ne =>
      simp only [sampleN, h1, Option.bind_some, categorical2, if_neg (Nat.pos_iff_ne_zero.1 hk),
        transpose2, hb, reshapeTo]
      rw [if_pos (by simp [Nat.mul_assoc]), Option.bind_some, getShapeAt_last hw hr]
      rfl
  | unnormalizedMultinomial l => exact hs.elim
  | onehot l =>
    obtain ⟨k, hk, rfl, hr⟩ := h
    obtain ⟨h1, h2⟩ := logitsFlat_spec hw hk hr
    simp only [sampleN, h1, Option.bind_some, categorical2, if_neg (Nat.pos_iff_ne_zero.1 hk),
      transpose2, hb, reshapeTo]
    rw [getShapeAt_last hw hr]
    split_ifs with hst hp
    · match b, h2 hst with
      | [x], _ => simp
    · simp
    · exact absurd (by simp) hp
  | dirichlet a =>
    obtain ⟨k, hk, rfl, hr⟩ := h
    simp only [sampleN, hr]
    have : n :: (b ++ [k]) = (n :: b) ++ [k] := rfl
    rw [this, dropLastAxis_append, Option.bind_some, bcast_append _ _ [k] [1] rfl, bcast_self,
      Option.bind_some]
    have : bcast [k] [1] = some [k] :=
      bcast_eq_of_expands' ⟨by simp, fun i hi => by simp at hi; subst hi; simp⟩
    rw [this]; rfl
  | expConcrete t l | concrete t l =>
    obtain ⟨ht, k, rfl, hr⟩ := h
    simp only [sampleN, ht]
    rw [bcast_eq_of_expands ((expands_refl _).cons n), Option.bind_some,
      bcast_eq_of_expands' (expands_nil _), hr]
    rfl
  | mvn m c =>
    obtain ⟨k, rfl, hm, hc⟩ := h
    simp only [sampleN, hm, hc]
    have e1 : n :: (b ++ [k]) ++ [1] = (n :: b) ++ [k, 1] := by simp
    have e2 : n :: (b ++ [k, k]) = (n :: b) ++ [k, k] := rfl
    rw [e1, e2]
    have : matmul2 ((n :: b) ++ [k, k]) ((n :: b) ++ [k, 1]) = some ((n :: b) ++ [k, 1]) := by
      unfold matmul2; simp only [splitLast2_append, Option.bind_some, and_self, if_true]
    rw [this, Option.bind_some, bcast_self, Option.bind_some]
    have e3 : (n :: b) ++ [k, 1] = ((n :: b) ++ [k]) ++ [1] := by simp
    rw [e3, squeezeLast_append]
  | matrixNormal m u w =>
    obtain ⟨r, c, rfl, hm, hu, hv⟩ := h
    simp only [sampleN, hm, hu, hv]
    have e : ∀ x y, n :: (b ++ [x, y]) = (n :: b) ++ [x, y] := fun _ _ => rfl
    rw [e, e, e]
    have h1 : matmul2 ((n :: b) ++ [r, r]) ((n :: b) ++ [r, c]) = some ((n :: b) ++ [r, c]) := by
      unfold matmul2; simp only [splitLast2_append, Option.bind_some, and_self, if_true]
    have h2 : matTranspose ((n :: b) ++ [c, c]) = some ((n :: b) ++ [c, c]) := by
      unfold matTranspose; simp only [splitLast2_append, Option.map_some]
    have h3 : matmul2 ((n :: b) ++ [r, c]) ((n :: b) ++ [c, c]) = some ((n :: b) ++ [r, c]) := by
      unfold matmul2; simp only [splitLast2_append, Option.bind_some, and_self, if_true]
    rw [h1, h2]
    simp only [Option.bind_some]
    rw [h3]
    simp only [Option.bind_some]
    exact bcast_eq_of_expands ((expands_refl (b ++ [r, c])).cons n)

/-- `sample(n)` has shape `[n] + batch_shape + value_shape`, for a Python `int` or a scalar tensor. -/
theorem C14_sample_n (d : Dist) (b v : List ℕ) (hw : d.WF) (h : d.HasShape b v) (hs : d.Samplable)
    (n : ℕ) : d.sample (.int n) = some (n :: b ++ v) ∧
      d.sample (.tensor 0 n) = some (n :: b ++ v) :=
  ⟨C14_sampleN d b v hw h hs n, by simp only [sample, if_true]; exact C14_sampleN d b v hw h hs n⟩

/-- `sample()` has shape `batch_shape + value_shape`. -/
theorem C14_sample_none (d : Dist) (b v : List ℕ) (hw : d.WF) (h : d.HasShape b v)
    (hs : d.Samplable) : d.sample .none = some (b ++ v) := by
  simp only [sample, C14_sampleN d b v hw h hs 1]
  rfl

/-- A non-scalar `n_samples` tensor is refused. -/
theorem C14_nonscalar_refused (d : Dist) (r n : ℕ) (hr : r ≠ 0) : d.sample (.tensor r n) = none := by
  simp [sample, hr]

/-- The two distributions documented as not samplable refuse every request. -/
theorem C14_not_samplable (d : Dist) (hs : ¬ d.Samplable) (a : NSamples) : d.sample a = none := by
  cases d with
  | unnormalizedMultinomial l => cases a <;> simp [sample, sampleN]
  | multinomial l ne =>
    cases ne with
    | none => cases a <;> simp [sample, sampleN]
    | some _ => simp [Samplable] at hs
  | _ => exact absurd trivial hs

/-- The static shape attached to samples (`set_shape` with `[n or None] + get_batch_shape() +
get_value_shape()`) admits the run-time shape. -/
theorem C14_static_sample_shape (d : Dist) (b v : List ℕ) (hw : d.WF) (h : d.HasShape b v)
    (n : ℕ) (known : Bool) (s : Static) (hb : d.getBatch = some s) :
    Admits ((Static.concat (some [if known then some n else none]) s).concat d.getValue)
      (n :: b ++ v) := by
  obtain ⟨⟨s', h1, h2⟩, h3, _⟩ := C16_get_batch_shape d b v hw h
  rw [hb] at h1
  cases h1
  have hn : Admits (some [if known then some n else none]) [n] := by
    cases known
    · exact .cons (.inl rfl) .nil
    · exact .cons (.inr rfl) .nil
  exact admits_concat (admits_concat hn h2) h3

/-- `log_prob` before grouping: when `given` broadcasts to `B + value_shape` against
`batch_shape + value_shape`, the multivariate log-probabilities have shape `B`. -/
theorem C15_multivariate_shape (d : Dist) (b v B : List ℕ) (given : P) (hd : d.Multivariate)
    (hw : d.WF) (hg : given.WF) (h : d.HasShape b v) (hB : IsBroadcast given.rt (b ++ v) (B ++ v)) :
    d.logProbMv given = some B := by
  rw [isBroadcast_iff] at hB
  have hbB : Expands b B := (Expands.of_append rfl (bcast_expands hB).2).1
  have k1 : ∀ k, bcast [k] [1] = some [k] := fun k =>
    bcast_eq_of_expands' ⟨by simp, fun i hi => by simp at hi; subst hi; simp⟩
  have keep : ∀ k, bcast (B ++ [k]) (B ++ [1]) = some (B ++ [k]) := fun k => by
    rw [bcast_append _ _ [k] [1] rfl, bcast_self, Option.bind_some, k1]; rfl
  cases d with
  | mvn m c =>
    obtain ⟨k, rfl, hm, hc⟩ := h
    obtain ⟨gm, e1, e2, e3⟩ := pbcast_spec hg hw.1 (by rw [hm]; exact hB)
    have hy : gm.expandLast.rt = B ++ [k, 1] := by
      show gm.rt ++ [1] = _; rw [e2]; simp
    have hL : bcast c.rt gm.expandLast.rt = some (B ++ [k, k]) := by
      rw [hc, hy, bcast_append _ _ [k, k] [k, 1] rfl, bcast_eq_of_expands hbB, Option.bind_some]
      have : bcast [k, k] [k, 1] = some [k, k] := by
        have := bcast_append [k] [k] [k] [1] rfl
        simp only [List.singleton_append] at this
        rw [this, bcast_self, Option.bind_some, k1]; rfl
      rw [this]; rfl
    obtain ⟨L, Y, f1, f2, _⟩ := meb_spec hw.2 (expandLast_WF e3) hL
    have hdiag : diagPart c.rt = some (b ++ [k]) := by
      unfold diagPart; rw [hc]; simp
    have hsolve : triSolve (B ++ [k, k]) (B ++ [k, 1]) = some (B ++ [k, 1]) := by
      unfold triSolve; simp only [splitLast2_append, Option.bind_some, and_self, if_true]
    have e4 : B ++ [k, 1] = (B ++ [k]) ++ [1] := by simp
    simp only [logProbMv, hdiag, Option.bind_some, dropLastAxis_append, e1, f1, f2, hy, hsolve]
    rw [e4]
    simp only [squeezeLast_append, Option.bind_some, dropLastAxis_append]
    exact bcast_eq_of_expands hbB
  | multinomial l ne =>
    obtain ⟨k, hk, rfl, hr⟩ := h
    obtain ⟨g', l', f1, f2, f3⟩ := meb_spec hg hw (by rw [hr]; exact hB)
    simp only [logProbMv, f1, Option.bind_some, f2, f3, dropLastAxis_append, keep, bcast_self]
    have : bcast (if ne.isSome then [] else B) B = some B := by
      split_ifs
      · exact bcast_eq_of_expands (expands_nil B)
      · exact bcast_self B
    rw [this, Option.bind_some, bcast_self]
  | unnormalizedMultinomial l =>
    obtain ⟨k, hk, rfl, hr⟩ := h
    obtain ⟨g', l', f1, f2, f3⟩ := meb_spec hg hw (by rw [hr]; exact hB)
    simp only [logProbMv, f1, Option.bind_some, f2, f3, dropLastAxis_append, keep, bcast_self]
  | onehot l =>
    obtain ⟨k, hk, rfl, hr⟩ := h
    obtain ⟨g', l', f1, f2, f3⟩ := meb_spec hg hw (by rw [hr]; exact hB)
    simp only [logProbMv, f1, Option.bind_some, f2, f3, if_true, dropLastAxis_append,
      getShapeAt_last hw hr, reshapeRows_spec B k hk]
    split_ifs
    · rfl
    · have : dropLastAxis [B.prod, k] = some [B.prod] := dropLastAxis_append [B.prod] k
      rw [this, Option.bind_some, reshapeTo, if_pos (by simp)]
  | dirichlet a =>
    obtain ⟨k, hk, rfl, hr⟩ := h
    obtain ⟨g', l', f1, f2, f3⟩ := meb_spec hg hw (by rw [hr]; exact hB)
    simp only [logProbMv, f1, Option.bind_some, f2, f3, dropLastAxis_append, bcast_self]
  | expConcrete t l =>
    obtain ⟨ht, k, rfl, hr⟩ := h
    simp only [logProbMv, ht]
    rw [bcast_eq_of_expands (expands_nil _), Option.bind_some, hr, bcast_comm, hB]
    simp only [Option.bind_some, dropLastAxis_append]
    rw [bcast_eq_of_expands (expands_nil _), Option.bind_some, bcast_self]
  | concrete t l =>
    obtain ⟨ht, k, rfl, hr⟩ := h
    simp only [logProbMv, ht]
    rw [bcast_eq_of_expands (expands_nil _), Option.bind_some, hr, bcast_comm, hB]
    simp only [Option.bind_some]
    rw [bcast_eq_of_expands' (bcast_expands hB).1]
    simp only [Option.bind_some, dropLastAxis_append]
    rw [bcast_eq_of_expands (expands_nil _), Option.bind_some, bcast_self]
  | matrixNormal m u w =>
    obtain ⟨r, c, rfl, hm, hu, hv⟩ := h
    obtain ⟨y, e1, e2, e3⟩ := pbcast_spec hg hw.1 (by rw [hm]; exact hB)
    have sq : ∀ k, bcast (b ++ [k, k]) (B ++ [k, 1]) = some (B ++ [k, k]) := by
      intro k
      rw [bcast_append _ _ [k, k] [k, 1] rfl, bcast_eq_of_expands hbB, Option.bind_some]
      have : bcast [k, k] [k, 1] = some [k, k] := by
        have := bcast_append [k] [k] [k] [1] rfl
        simp only [List.singleton_append] at this
        rw [this, bcast_self, Option.bind_some, k1]; rfl
      rw [this]; rfl
    have hdu : diagPart u.rt = some (b ++ [r]) := by unfold diagPart; rw [hu]; simp
    have hdv : diagPart w.rt = some (b ++ [c]) := by unfold diagPart; rw [hv]; simp
    obtain ⟨lu, _, f1, f2, _⟩ := meb_spec (x := u) (y := ⟨none, B ++ [r, 1]⟩) hw.2.1 trivial
      (by rw [hu]; exact sq r)
    obtain ⟨lv, _, g1, g2, _⟩ := meb_spec (x := w) (y := ⟨none, B ++ [c, 1]⟩) hw.2.2 trivial
      (by rw [hv]; exact sq c)
    have hs1 : triSolve (B ++ [r, r]) (B ++ [r, c]) = some (B ++ [r, c]) := by
      unfold triSolve; simp only [splitLast2_append, Option.bind_some, and_self, if_true]
    have ht : matTranspose (B ++ [r, c]) = some (B ++ [c, r]) := by
      unfold matTranspose; simp only [splitLast2_append, Option.map_some]
    have hs2 : triSolve (B ++ [c, c]) (B ++ [c, r]) = some (B ++ [c, r]) := by
      unfold triSolve; simp only [splitLast2_append, Option.bind_some, and_self, if_true]
    simp only [logProbMv, hdu, hdv, Option.bind_some, dropLastAxis_append, bcast_self, e1, e2,
      splitLast2_append, f1, f2, g1, g2, hs1, ht, hs2]
    exact bcast_eq_of_expands hbB
  | _ => exact hd.elim

/-- Non-trivial instances of the hypotheses. -/
example : (Dist.normal ⟨some [none, some 1], [2, 1]⟩ ⟨none, [3]⟩).WF ∧
    (Dist.normal ⟨some [none, some 1], [2, 1]⟩ ⟨none, [3]⟩).HasShape [2, 3] [] :=
  ⟨⟨.cons (.inl rfl) (.cons (.inr rfl) .nil), trivial⟩, isBroadcast_iff.2 rfl, rfl⟩

example : (Dist.mvn ⟨none, [4, 3]⟩ ⟨some [some 4, none, some 3], [4, 3, 3]⟩).HasShape [4] [3] ∧
    IsBroadcast [7, 1, 3] ([4] ++ [3]) ([7, 4] ++ [3]) :=
  ⟨⟨3, rfl, rfl, rfl⟩, isBroadcast_iff.2 rfl⟩

end Dist
end ZhuSuan.Shape
