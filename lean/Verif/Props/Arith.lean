import Verif.Model.Arith

/-! # C37: arithmetic on tensor-like objects is arithmetic on their tensors -/

set_option autoImplicit false

namespace ZhuSuan.Arith
variable {N T I : Type}

/-- Replace an object by its tensor. -/
def Val.erase : Val N T → Val N T
  | .obj _ t => .tensor t
  | v => v

/-- Replace every object of an expression by its tensor. -/
def Exp.erase : Exp N T I → Exp N T I
  | .leaf v => .leaf v.erase
  | .bin op a b => .bin op a.erase b.erase
  | .un op a => .un op a.erase
  | .item a i => .item a.erase i

/-- The mirrored comparisons of TensorFlow agree. -/
structure Mirror (o : Ops N T I) : Prop where
  lt : ∀ a b, o.tf .greater a b = o.tf .less b a
  le : ∀ a b, o.tf .greater_equal a b = o.tf .less_equal b a

theorem binop_erase (o : Ops N T I) (h : Mirror o) (op : Op) (a b : Val N T) :
    (binop o op a b).erase = binop o op a.erase b.erase := by
  cases a with
  | num m =>
    cases b with
    | num n => rfl
    | tensor t => rfl
    | obj i t => cases op <;> simp [binop, call, reflected, tensorFn, Val.erase, Val.convert, h.lt, h.le]
  | tensor s => cases b <;> rfl
  | obj i s => cases b <;> cases op <;> rfl

/-- Evaluating an expression with the mixin's operators gives the same result as replacing every
object by its tensor first. -/
theorem C37_delegates (o : Ops N T I) (h : Mirror o) (e : Exp N T I) :
    (e.eval o).erase = e.erase.eval o := by
  induction e with
  | leaf v => rfl
  | bin op a b iha ihb =>
    simp only [Exp.eval, Exp.erase, ← iha, ← ihb]
    exact binop_erase o h op _ _
  | un op a ih =>
    simp only [Exp.eval, Exp.erase, ← ih]
    cases a.eval o <;> cases op <;> rfl
  | item a i ih =>
    simp only [Exp.eval, Exp.erase, ← ih]
    cases a.eval o <;> rfl

/-- Operand order is kept: `a op b` with at least one tensor-like operand is the TensorFlow function of
that operator on the left value and the right value, in this order. -/
theorem C37_operand_order (o : Ops N T I) (h : Mirror o) (op : Op) (a b : Val N T)
    (hab : ¬ ∃ m n, a = .num m ∧ b = .num n) :
    binop o op a b = .tensor (o.tf (tensorFn op) (a.convert o) (b.convert o)) := by
  cases a with
  | num m =>
    cases b with
    | num n => exact absurd ⟨m, n, rfl, rfl⟩ hab
    | tensor t => rfl
    | obj i t => cases op <;> simp [binop, call, reflected, tensorFn, Val.convert, h.lt, h.le]
  | tensor s => cases b <;> rfl
  | obj i s => cases b <;> cases op <;> rfl

/-- Objects are compared by identity and cannot be iterated over. -/
theorem C37_identity {α : Type} (elems : T → α) (i j : Nat) (s t : T) :
    (objEq (.obj i s : Val N T) (.obj j t) = some true ↔ i = j) ∧
    iter elems (.obj i s : Val N T) = .typeError := by
  simp [objEq, iter]

/-- A concrete interpretation: integers, and comparisons as 0/1. -/
example : Mirror (N := Int) (T := Int) (I := Unit)
    { tf := fun f a b => match f with
        | .add => a + b | .subtract => a - b | .less => if a < b then 1 else 0
        | .greater => if b < a then 1 else 0 | .less_equal => if a ≤ b then 1 else 0
        | .greater_equal => if b ≤ a then 1 else 0 | _ => 0,
      tfu := fun _ a => -a, py := fun _ a _ => a, pyu := fun _ a => a, item := fun a _ => a,
      numItem := fun a _ => a, ofNum := id } :=
  ⟨fun _ _ => rfl, fun _ _ => rfl⟩

end ZhuSuan.Arith
