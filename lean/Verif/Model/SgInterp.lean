import Verif.Model.SgGraph
import Verif.Model.Resume

/-!
# What the operations of an SGMCMC iteration compute

The operations of `SgGraph` with the formulas of zhusuan/sgmcmc.py.
-/

set_option autoImplicit false

namespace ZhuSuan.SgGraph
open Dataflow Sgmcmc Resume

variable {V : Type} {I : V → Type} [∀ v, Fintype (I v)]

/-- The value of an operation or variable: the counter, or a tensor.  Of `lat` only the component of the variable that the operation is
for is used.  (sgmcmc.py 102–118) -/
structure Val (I : V → Type) where
  count : ℕ
  lat : Lat I

/-- A value of an operation that the sampler does not have.  (sgmcmc.py 102–118) -/
def Val.none : Val I := ⟨0, fun _ _ => 0⟩

/-- The list of tensors.  (sgmcmc.py 90, 103) -/
def lists (x : V → Val I) : Lat I := fun v => (x v).lat v

/-- The graph that belongs to a sampler and its arguments.  (sgmcmc.py 170–523) -/
def kind : Method → Kind
  | .sgld _ => .sgld
  | .psgld _ _ _ => .psgld
  | .sghmc _ _ _ n second => .sghmc second (n != 0)
  | .sgnht _ _ _ n second _ => .sgnht second (n != 0)

/-- `old_vs` (330–337, 470–478) from the momentum and the counter. -/
noncomputable def oldMom (lr : ℝ) (n : ℕ) (w : Input I) (mom t : Val I) : Val I :=
  ⟨0, oldV lr (fun _ => resampleNow n t.count) w.r mom.lat⟩

/-- What an operation computes; lines as in `Op`.  (sgmcmc.py 191–200, 228–231, 246–257, 326–371, 460–520) -/
noncomputable def eval (m : Method) (w : Input I) (op : Op V) (out : Op V → Val I) (var : Var V → Val I) : Val I :=
  match op with
  | .incT => ⟨(var .t).count + 1, fun _ _ => 0⟩
  | .updateQ v => out (.newQ v)
  | .sampleOp => .none
  | .grad _ => match m with
    | .sghmc _ _ _ _ true | .sgnht _ _ _ _ true _ => ⟨0, w.grad (lists fun v => out (.q1 v))⟩
    | _ => ⟨0, w.grad (lists fun v => var (.q v))⟩
  | op => match m, op with
    | .sgld lr, .newQ v =>
      ⟨0, fun u i => (var (.q v)).lat u i + 0.5 * lr * (out (.grad v)).lat u i + Real.sqrt lr * w.z u i⟩
    | .psgld _ decay _, .newAux v => ⟨0, fun u i => rmsAux decay ((out (.grad v)).lat u i) ((var (.aux v)).lat u i)⟩
    | .psgld lr _ epsilon, .newQ v =>
      let g : Lat I := fun u i => rmsPreconditioner epsilon ((out (.newAux v)).lat u i)
      ⟨0, fun u i => (var (.q v)).lat u i + 0.5 * lr * g u i * (out (.grad v)).lat u i + Real.sqrt (lr * g u i) * w.z u i⟩
    | .sghmc lr _ _ n _, .oldV v => oldMom lr n w (var (.mom v)) (var .t)
    | .sgnht lr _ _ n _ _, .oldV v => oldMom lr n w (var (.mom v)) (var .t)
    | .sghmc _ _ _ _ true, .q1 v => ⟨0, fun u i => (var (.q v)).lat u i + 0.5 * (out (.oldV v)).lat u i⟩
    | .sgnht _ _ _ _ true _, .q1 v => ⟨0, fun u i => (var (.q v)).lat u i + 0.5 * (out (.oldV v)).lat u i⟩
    | .sgnht lr _ tuneRate _ true vector, .alpha1 v =>
      ⟨0, fun u i => (var (.alpha v)).lat u i + 0.5 * tuneRate * (maybeMeanSq vector ((out (.oldV v)).lat u) i - lr)⟩
    | .sghmc lr alpha beta _ false, .newV v =>
      ⟨0, fun u i => (1 - alpha) * (out (.oldV v)).lat u i + lr * (out (.grad v)).lat u i +
        Real.sqrt (2 * (alpha - beta) * lr) * w.z u i⟩
    | .sghmc lr alpha beta _ true, .newV v =>
      ⟨0, fun u i => Real.exp (-0.5 * alpha) * (Real.exp (-0.5 * alpha) * (out (.oldV v)).lat u i + lr * (out (.grad v)).lat u i +
        Real.sqrt (2 * (alpha - beta) * lr) * w.z u i)⟩
    | .sgnht lr a _ _ false _, .newV v =>
      ⟨0, fun u i => (1 - (var (.alpha v)).lat u i) * (out (.oldV v)).lat u i + lr * (out (.grad v)).lat u i +
        Real.sqrt (2 * a * lr) * w.z u i⟩
    | .sgnht lr a _ _ true _, .newV v =>
      let d : Lat I := fun u i => Real.exp (-0.5 * (out (.alpha1 v)).lat u i)
      ⟨0, fun u i => d u i * (d u i * (out (.oldV v)).lat u i + lr * (out (.grad v)).lat u i + Real.sqrt (2 * a * lr) * w.z u i)⟩
    | .sghmc _ _ _ _ false, .newQ v => ⟨0, fun u i => (var (.q v)).lat u i + (out (.newV v)).lat u i⟩
    | .sgnht _ _ _ _ false _, .newQ v => ⟨0, fun u i => (var (.q v)).lat u i + (out (.newV v)).lat u i⟩
    | .sghmc _ _ _ _ true, .newQ v => ⟨0, fun u i => (out (.q1 v)).lat u i + 0.5 * (out (.newV v)).lat u i⟩
    | .sgnht _ _ _ _ true _, .newQ v => ⟨0, fun u i => (out (.q1 v)).lat u i + 0.5 * (out (.newV v)).lat u i⟩
    | .sgnht lr _ tuneRate _ false vector, .newAlpha v =>
      ⟨0, fun u i => (var (.alpha v)).lat u i + tuneRate * (maybeMeanSq vector ((out (.newV v)).lat u) i - lr)⟩
    | .sgnht lr _ tuneRate _ true vector, .newAlpha v =>
      ⟨0, fun u i => (out (.alpha1 v)).lat u i + 0.5 * tuneRate * (maybeMeanSq vector ((out (.newV v)).lat u) i - lr)⟩
    | .sghmc _ _ _ _ _, .updateV v => out (.newV v)
    | .sgnht _ _ _ _ _ _, .updateV v => out (.newV v)
    | .sgnht _ _ _ _ _ _, .updateAlpha v => out (.newAlpha v)
    | _, _ => .none

/-- The variables of the sampler.  (sgmcmc.py 73, 90, 226, 320–324, 448–458) -/
def decode (var : Var V → Val I) : Vars I :=
  ⟨lists fun v => var (.q v), lists fun v => var (.aux v), lists fun v => var (.mom v), lists fun v => var (.alpha v), (var .t).count⟩

end ZhuSuan.SgGraph
