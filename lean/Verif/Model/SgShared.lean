import Verif.Model.Sgmcmc

/-!
# Several sampling operations of one SGMCMC instance

`SGMCMC.sample` may be called more than once on an instance.  Each call makes its own momentum variables, but all operations read and increment the counter that
the constructor made.
-/
set_option autoImplicit false

namespace ZhuSuan.Sgmcmc

/-- Runs of sampling operations of one instance, one after the other, from a value of the counter (zhusuan/sgmcmc.py:73 makes the counter, :107 increments it;
:330-337 and :470-478 read it).  For each run: the operation, and whether it resampled its momenta.  The counter is read before it is incremented; the other order
is in C61. -/
def runOps {Op : Type} (n : ℕ) : ℕ → List Op → List (Op × Bool)
  | _, [] => []
  | t, op :: rest => (op, resampleNow n t) :: runOps n (t + 1) rest

end ZhuSuan.Sgmcmc
