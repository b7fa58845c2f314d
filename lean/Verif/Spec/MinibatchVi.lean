import Mathlib.Analysis.SpecialFunctions.Sqrt

/-!
# Specification: a fully connected net with rectified hidden layers
-/

set_option autoImplicit false

namespace ZhuSuan.Minibatch

/-- The inputs of the units of layer `l`, before the nonlinearity: layer `0` is the data; the units of all other layers but the last are
rectified before they enter the next layer.  `W l m k` is the weight of unit `k` of layer `l` for unit `m` of the next layer, and the last
`W l m k` is the bias of unit `m`.  The sum is divided by the root of the number of weights of a unit. -/
noncomputable def net {sizes : ℕ → ℕ} (W : (l : ℕ) → Fin (sizes (l + 1)) → Fin (sizes l + 1) → ℝ) (x : Fin (sizes 0) → ℝ) :
    (l : ℕ) → Fin (sizes l) → ℝ
  | 0 => x
  | l + 1 => fun m =>
    ((∑ k, W l m (Fin.castSucc k) * if l = 0 then net W x l k else max 0 (net W x l k)) + W l m (Fin.last _)) / Real.sqrt (sizes l + 1 : ℕ)

end ZhuSuan.Minibatch
