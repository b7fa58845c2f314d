import Verif.Model.Flt

/-!
# Effective sample size

`zhusuan/diagnostics.py`.  Numbers are `XF`: numpy gives NaN and infinities with a warning.  Arithmetic on
finite values is exact.
-/

set_option autoImplicit false

namespace ZhuSuan.Diagnostics

/-- The failing `assert` (diagnostics.py 59) and numpy errors (diagnostics.py 24, 58). -/
inductive Err where
  | assertionError
  | indexError
deriving DecidableEq

/-- `np.mean` of an array of length `n`.  (numpy; used at diagnostics.py 25, 30) -/
noncomputable def npMean (n : ℕ) (x : ℕ → XF) : XF := Flt.sum (fun i : Fin n => x i) / .fin n

/-- `np.var`.  (numpy; used at diagnostics.py 26) -/
noncomputable def npVar (n : ℕ) (x : ℕ → XF) : XF :=
  npMean n fun i => (x i - npMean n x) * (x i - npMean n x)

open Classical in
/-- The loop (32–37): `k` iterations are left and the next lag is `t`. -/
noncomputable def sumRho (rho : ℕ → XF) : ℕ → ℕ → XF → XF
  | 0, _, acc => acc
  | k + 1, t, acc => if XF.lt (rho t) (.fin 0) then acc else sumRho rho k (t + 1) (acc + rho t)

/-- `effective_sample_size_1d` (17–40) for an array of length `n`. -/
noncomputable def ess1d (n : ℕ) (x : ℕ → XF) : XF :=
  let mu := npMean n x
  let var := npVar n x * .fin n / .fin (n - 1)
  let varPlus := var * .fin (n - 1) / .fin n
  let autoCov := fun lag => npMean (n - lag) fun i => (x i - mu) * (x (i + lag) - mu)
  let rho := fun t => .fin 1 - (var - autoCov t) / varPlus
  .fin n / (.fin 1 + .fin 2 * sumRho rho n 0 (.fin 0))

open Classical in
/-- The assertion and the minimum (59–61). -/
noncomputable def takeMin (ess current : XF) : Except Err XF :=
  if XF.lt (.fin 0) ess ∨ ess = .fin 0 then
    if XF.lt (.fin 0) ess then .ok (if XF.lt ess current then ess else current) else .ok current
  else .error .assertionError

/-- The body of the loop of `effective_sample_size` (58–61).  `np.squeeze` (58) turns an array of one sample into a
scalar, whose `shape[0]` raises `IndexError`. -/
noncomputable def essStep (n : ℕ) (x : ℕ → XF) (current : XF) : Except Err XF :=
  if n = 1 then .error .indexError else takeMin (ess1d n x) current

/-- The loop over the dimensions.  (diagnostics.py 55–64) -/
noncomputable def essLoop (n : ℕ) : List (ℕ → XF) → XF → Except Err XF
  | [], current => .ok current
  | x :: l, current =>
    match essStep n x current with
    | .error e => .error e
    | .ok c => essLoop n l c

/-- `effective_sample_size` (43–64) for an array of `M` rows, given by its columns.  Negative `burn_in` is not
modelled. -/
noncomputable def effectiveSampleSize (M : ℕ) (columns : List (ℕ → XF)) (burnIn : ℕ) : Except Err XF :=
  essLoop (M - burnIn) (columns.map fun x => fun i => x (burnIn + i)) .inf

end ZhuSuan.Diagnostics
