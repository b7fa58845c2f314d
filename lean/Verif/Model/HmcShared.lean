import Verif.Model.HmcFetch

/-!
# Several sampling operations of one HMC instance

`HMC.sample` may be called more than once on an instance.  Each call makes its own estimator of the variances (zhusuan/hmc.py 285–286),
but all operations read and assign the counter, the step size and the tuner that the constructor made (258–269).
-/

set_option autoImplicit false

namespace ZhuSuan.Hmc

variable {α : Type} [Add α] [Sub α] [Neg α] [Mul α] [Div α] [Flt α]
variable {K C ι : Type} [DecidableEq K] [Fintype C] [Fintype ι]

/-- The variables of an instance and of its operations `K`.  Simplified: all operations have chains and coordinates of the same
types.  (hmc.py 258–269 shared, 285–286 and 424 of an operation) -/
structure Shared (α K C ι : Type) where
  t : ℕ
  stepSize : α
  tuner : Tuner α
  q : K → C → ι → α
  ewmv : K → Ewmv α ι

/-- What operation `k` sees.  (hmc.py 382–522) -/
def Shared.get (x : Shared α K C ι) (k : K) : State α C ι := ⟨x.q k, x.t, x.stepSize, x.tuner, x.ewmv k⟩

/-- What operation `k` assigns.  (hmc.py 382–522) -/
def Shared.set (x : Shared α K C ι) (k : K) (s : State α C ι) : Shared α K C ι :=
  ⟨s.t, s.stepSize, s.tuner, Function.update x.q k s.q, Function.update x.ewmv k s.ewmv⟩

/-- Runs of the operations, one after the other, until one does not finish; each operation has its own log joint, which does not
depend on the latent variables of the others.  (the loop of the user, hmc.py 218–245) -/
noncomputable def runShared (cfg : Cfg α) (logPost : K → (C → ι → α) → C → α) (grad : K → (C → ι → α) → C → ι → α) :
    List (K × Call α C ι) → Shared α K C ι → Option (Shared α K C ι)
  | [], x => some x
  | (k, w) :: ws, x =>
    match sampleWith w.fetches cfg (logPost k) (grad k) w.feed w.z w.u (x.get k) with
    | .ok s' _ => runShared cfg logPost grad ws (x.set k s')
    | .numericError => none
    | .diverges => none

end ZhuSuan.Hmc
