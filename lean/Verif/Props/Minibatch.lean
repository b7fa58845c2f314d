import Verif.Model.Minibatch
import Verif.Spec.Minibatch
import Mathlib.Algebra.Order.Floor.Semifield
import Mathlib.Data.Fintype.BigOperators
import Mathlib.GroupTheory.Perm.Basic
import Mathlib.Data.List.FinRange
import Mathlib.Probability.ProbabilityMassFunction.Integrals
import Mathlib.Tactic.FieldSimp
import Mathlib.Tactic.Linarith

/-!
# C92: minibatches

The loops of the examples over slices of shuffled data.
-/

set_option autoImplicit false

open MeasureTheory

namespace ZhuSuan.Minibatch

variable {D X Y W : Type} {n : ℕ}

/-! ## The number of iterations -/

/-- The three ways to round up agree. -/
theorem C92_iters_up (n b : ℕ) (hb : 0 < b) : itersSub n b = itersUp n b ∧ itersCeil n b = itersUp n b := by
  constructor
  · unfold itersSub itersUp
    rcases n with _ | m
    · have h1 : (-1 : ℤ) / b = -1 := Int.ediv_eq_neg_one_of_neg_of_le (by norm_num) (by omega)
      simp only [Nat.cast_zero, zero_sub, h1, zero_add]
      rw [Nat.div_eq_of_lt (by omega)]
      rfl
    · have h1 : ((m + 1 : ℕ) : ℤ) - 1 = (m : ℕ) := by push_cast; ring
      rw [h1, show m + 1 + b - 1 = m + b by omega, Nat.add_div_right _ hb]
      rw [← Int.natCast_ediv]
      rfl
  · refine eq_of_forall_ge_iff fun k => ?_
    unfold itersCeil itersUp
    rw [Nat.ceil_le, div_le_iff₀ (by exact_mod_cast hb), ← Nat.lt_succ_iff, Nat.div_lt_iff_lt_mul hb, Nat.succ_mul]
    norm_cast
    omega

/-- The two ways to round down agree. -/
theorem C92_iters_down (n b : ℕ) : itersFloor n b = itersDown n b := Nat.floor_div_eq_div n b

/-! ## What the batches cover -/

theorem slices_take (l : List D) (b k : ℕ) :
    (List.range k).flatMap (fun t => slice l (t * b) ((t + 1) * b)) = l.take (k * b) := by
  induction k with
  | zero => simp
  | succ k ih =>
    rw [List.range_succ, List.flatMap_append, ih]
    simp only [List.flatMap_cons, List.flatMap_nil, List.append_nil, slice]
    conv_rhs => rw [← List.take_append_drop (k * b) (l.take ((k + 1) * b))]
    rw [List.take_take, min_eq_left (by nlinarith)]

theorem batch_length (a : Fin n → D) (b t : ℕ) : (batch a b t).length = min b (n - t * b) := by
  unfold batch slice
  rw [List.length_drop, List.length_take, List.length_ofFn, Nat.succ_mul]
  omega

theorem lt_up {b t : ℕ} (hb : 0 < b) : t < itersUp n b ↔ t * b < n := by
  unfold itersUp
  rw [← Nat.succ_le_iff, Nat.le_div_iff_mul_le hb, Nat.succ_mul]
  omega

/-- One epoch with the number of iterations rounded up feeds every row once, in order, in nonempty batches of at most `b` rows. -/
theorem C92_cover (a : Fin n → D) (b : ℕ) (hb : 0 < b) :
    (List.range (itersUp n b)).flatMap (batch a b) = List.ofFn a ∧
    ∀ t < itersUp n b, 0 < (batch a b t).length ∧ (batch a b t).length ≤ b ∧
      (t + 1 < itersUp n b → (batch a b t).length = b) := by
  constructor
  · have h := slices_take (List.ofFn a) b (itersUp n b)
    refine h.trans (List.take_of_length_le ?_)
    rw [List.length_ofFn]
    exact not_lt.1 fun h => lt_irrefl _ ((lt_up hb).2 h)
  · intro t ht
    have h1 := (lt_up hb).1 ht
    rw [batch_length]
    refine ⟨by omega, by omega, fun h => ?_⟩
    have h2 := (lt_up hb).1 h
    rw [Nat.succ_mul] at h2
    omega

/-- One epoch with the number of iterations rounded down feeds batches of exactly `b` rows and leaves out the last `n % b` rows. -/
theorem C92_cover_down (a : Fin n → D) (b : ℕ) :
    (List.range (itersDown n b)).flatMap (batch a b) = (List.ofFn a).take (n - n % b) ∧
    ∀ t < itersDown n b, (batch a b t).length = b := by
  constructor
  · have h := slices_take (List.ofFn a) b (itersDown n b)
    refine h.trans ?_
    congr 1
    unfold itersDown
    have := Nat.div_add_mod' n b
    omega
  · intro t ht
    unfold itersDown at ht
    have h1 : (t + 1) * b ≤ n := (Nat.mul_le_mul_right b ht).trans (Nat.div_mul_le_self n b)
    rw [batch_length]
    rw [Nat.succ_mul] at h1
    omega

/-! ## Pairs of rows -/

theorem ofFn_zip (x : Fin n → X) (y : Fin n → Y) : (List.ofFn x).zip (List.ofFn y) = List.ofFn fun i => (x i, y i) := by
  refine List.ext_getElem (by simp) fun i _ _ => ?_
  simp

theorem feed_eq (s : Arrays n X Y) (b t : ℕ) : s.feed b t = batch (fun i => (s.x i, s.y i)) b t := by
  unfold Arrays.feed batch slice
  rw [← ofFn_zip, List.zip, List.take_zipWith, List.drop_zipWith]

theorem permute_mul (s : Arrays n X Y) (σ τ : Equiv.Perm (Fin n)) : (s.permute σ).permute τ = s.permute (σ * τ) := rfl

theorem epochs_eq (s : Arrays n X Y) (perms : List (Equiv.Perm (Fin n))) : s.epochs perms = s.permute perms.prod := by
  unfold Arrays.epochs
  induction perms generalizing s with
  | nil => rfl
  | cons σ l ih => rw [List.foldl_cons, ih, permute_mul, List.prod_cons]

/-- After any number of epochs with any permutations, an epoch feeds each row of `x_train` with its row of `y_train`, every
pair once. -/
theorem C92_pairs (s : Arrays n X Y) (perms : List (Equiv.Perm (Fin n))) (b : ℕ) (hb : 0 < b) :
    ((List.range (itersUp n b)).flatMap ((s.epochs perms).feed b)).Perm (List.ofFn fun i => (s.x i, s.y i)) := by
  rw [show (s.epochs perms).feed b = batch (fun i => ((s.epochs perms).x i, (s.epochs perms).y i)) b from
    funext (feed_eq _ b), (C92_cover _ b hb).1, epochs_eq]
  exact Equiv.Perm.ofFn_comp_perm perms.prod fun i => (s.x i, s.y i)

/-! ## Unbiasedness -/

instance : IsProbabilityMeasure (uniform n) := by unfold uniform; infer_instance

instance : MeasurableSingletonClass (Equiv.Perm (Fin n)) := ⟨fun _ => trivial⟩

theorem integral_uniform (f : Equiv.Perm (Fin n) → ℝ) :
    ∫ σ, f σ ∂uniform n = (∑ σ, f σ) / Fintype.card (Equiv.Perm (Fin n)) := by
  unfold uniform
  rw [PMF.integral_eq_sum]
  simp only [PMF.uniformOfFintype_apply, ENNReal.toReal_inv, ENNReal.toReal_natCast, smul_eq_mul]
  rw [← Finset.mul_sum, div_eq_inv_mul]

theorem uniform_int (f : Equiv.Perm (Fin n) → ℝ) : Integrable f (uniform n) := .of_finite

/-- The row at a given place of a shuffled array has the mean of all rows. -/
theorem row_mean (φ : Fin n → ℝ) (i : Fin n) : ∫ σ : Equiv.Perm (Fin n), φ (σ i) ∂uniform n = (∑ j, φ j) / n := by
  have hn : (n : ℝ) ≠ 0 := by have := i.pos; positivity
  have h1 : ∀ j, ∑ σ : Equiv.Perm (Fin n), φ (σ j) = ∑ σ : Equiv.Perm (Fin n), φ (σ i) := fun j => by
    rw [← Equiv.sum_comp (Equiv.mulRight (Equiv.swap i j)) fun σ : Equiv.Perm (Fin n) => φ (σ j)]
    simp
  have h2 : (n : ℝ) * ∑ σ : Equiv.Perm (Fin n), φ (σ i) = Fintype.card (Equiv.Perm (Fin n)) * ∑ j, φ j := by
    calc (n : ℝ) * ∑ σ : Equiv.Perm (Fin n), φ (σ i) = ∑ _j : Fin n, ∑ σ : Equiv.Perm (Fin n), φ (σ i) := by simp
      _ = ∑ j : Fin n, ∑ σ : Equiv.Perm (Fin n), φ (σ j) := Finset.sum_congr rfl fun j _ => (h1 j).symm
      _ = ∑ σ : Equiv.Perm (Fin n), ∑ j, φ (σ j) := Finset.sum_comm
      _ = ∑ _σ : Equiv.Perm (Fin n), ∑ j, φ j := Finset.sum_congr rfl fun σ _ => Equiv.sum_comp σ φ
      _ = _ := by simp
  rw [integral_uniform, div_eq_div_iff (by exact_mod_cast Fintype.card_ne_zero) hn, mul_comm, h2, mul_comm]

theorem list_mean (φ : Fin n → ℝ) (l : List (Fin n)) :
    ∫ σ : Equiv.Perm (Fin n), (l.map fun i => φ (σ i)).sum ∂uniform n = l.length * ((∑ j, φ j) / n) := by
  induction l with
  | nil => simp
  | cons i l ih =>
    simp only [List.map_cons, List.sum_cons, List.length_cons, Nat.cast_add, Nat.cast_one]
    rw [integral_add (uniform_int _) (uniform_int _), row_mean, ih]
    ring

/-- The row numbers of a batch. -/
theorem batch_map (a : Fin n → D) (b t : ℕ) : batch a b t = (batch (fun i : Fin n => i) b t).map a := by
  unfold batch slice
  rw [List.map_drop, List.map_take, List.map_ofFn]
  rfl

/-- A batch of uniformly shuffled rows, also a last one with fewer rows, is unbiased: the mean of any function over it has the
mean over all rows for its expected value. -/
theorem C92_unbiased_mean (a : Fin n → D) (b t : ℕ) (hb : 0 < b) (ht : t < itersUp n b) (φ : D → ℝ) :
    ∫ σ : Equiv.Perm (Fin n), mean ((batch (fun i => a (σ i)) b t).map φ) ∂uniform n = (∑ i, φ (a i)) / n := by
  have hl : 0 < (batch (fun i : Fin n => i) b t).length := ((C92_cover _ b hb).2 t ht).1
  have e : ∀ σ : Equiv.Perm (Fin n), mean ((batch (fun i => a (σ i)) b t).map φ) =
      ((batch (fun i : Fin n => i) b t).map fun i => φ (a (σ i))).sum / (batch (fun i : Fin n => i) b t).length := by
    intro σ
    rw [batch_map, List.map_map, mean, List.length_map]
    rfl
  simp only [e]
  rw [integral_div, list_mean (fun i => φ (a i))]
  have : ((batch (fun i : Fin n => i) b t).length : ℝ) ≠ 0 := by positivity
  field_simp

/-- The log joint that the examples compute from a batch is an unbiased estimate of the log joint of all the data, in every
iteration of every epoch, whatever the permutations of the earlier epochs were. -/
theorem C92_unbiased (s : Arrays n X Y) (perms : List (Equiv.Perm (Fin n))) (b t : ℕ) (hb : 0 < b) (ht : t < itersUp n b)
    (prior : W → ℝ) (lik : X × Y → W → ℝ) (w : W) :
    ∫ σ, logJoint n prior lik (((s.epochs perms).permute σ).feed b t) w ∂uniform n =
      prior w + ∑ i, lik (s.x i, s.y i) w := by
  have hn : (n : ℝ) ≠ 0 := by
    have := (lt_up hb).1 ht
    have : 0 < n := by omega
    positivity
  unfold logJoint
  rw [integral_add (integrable_const _) (uniform_int _), integral_mul_const, integral_const, probReal_univ, one_smul]
  congr 1
  simp only [feed_eq]
  have h := C92_unbiased_mean (fun i => ((s.epochs perms).x i, (s.epochs perms).y i)) b t hb ht fun d => lik d w
  refine (congrArg (· * (n : ℝ)) h).trans ?_
  rw [div_mul_cancel₀ _ hn, epochs_eq]
  exact Equiv.sum_comp perms.prod fun i => lik (s.x i, s.y i) w

/-! ## Means of the values of batches -/

theorem sum_flatMap (l : List ℕ) (g : ℕ → List ℝ) : (l.flatMap g).sum = (l.map fun t => (g t).sum).sum := by
  induction l with
  | nil => rfl
  | cons t l ih => rw [List.flatMap_cons, List.sum_append, ih, List.map_cons, List.sum_cons]

/-- When the batches have the same size, the mean of the values of the batches is the mean over the rows that are fed. -/
theorem C92_mean_of_means (a : Fin n → D) (b : ℕ) (hb : 0 < b) (φ : D → ℝ) :
    meanOfMeans a b (itersDown n b) φ = mean (((List.ofFn a).take (n - n % b)).map φ) := by
  obtain ⟨h1, h2⟩ := C92_cover_down a b
  unfold meanOfMeans
  rw [← h1, List.map_flatMap]
  unfold mean
  have e : (List.range (itersDown n b)).map (fun t => ((batch a b t).map φ).sum / (((batch a b t).map φ).length : ℝ)) =
      (List.range (itersDown n b)).map fun t => ((batch a b t).map φ).sum * (1 / b : ℝ) := by
    refine List.map_congr_left fun t ht => ?_
    rw [List.length_map, h2 t (List.mem_range.1 ht)]
    ring
  have el : ((List.range (itersDown n b)).flatMap fun t => (batch a b t).map φ).length = itersDown n b * b := by
    rw [← List.map_flatMap, List.length_map, h1, List.length_take, List.length_ofFn, min_eq_left (by omega)]
    unfold itersDown
    have := Nat.div_add_mod' n b
    omega
  rw [e, List.sum_map_mul_right, sum_flatMap, el, List.length_map, List.length_range]
  push_cast
  have : (b : ℝ) ≠ 0 := by positivity
  by_cases h0 : (itersDown n b : ℝ) = 0
  · simp [h0]
  · field_simp

/-- When they do not, the mean of the values of the batches is not the mean over the rows (svgp.py 185, 198). -/
theorem C92_ragged : ∃ (a : Fin 3 → ℝ), meanOfMeans a 2 (itersUp 3 2) id ≠ mean ((List.ofFn a).map id) := by
  refine ⟨![0, 0, 1], ?_⟩
  simp [meanOfMeans, mean, itersUp, batch, slice, List.range_succ, List.ofFn_succ]

end ZhuSuan.Minibatch
