import Verif.Model.Operators
import Mathlib.Algebra.Order.Floor.Semiring

/-!
# What expressions stand for

The numbers that Python's operators denote, and the expressions for which secret tensors promise these numbers.
-/

namespace SyMPC.Operators

variable {n : Nat}

/-- The matrix that an operator denotes.  Comparisons are 1 where they hold and 0 elsewhere. -/
def BinOp.value (op : BinOp) (x y : Mat n) : Mat n :=
  match op with
  | .add => fun i j => x i j + y i j
  | .sub => fun i j => x i j - y i j
  | .mul => fun i j => x i j * y i j
  | .matmul => fun i j => ∑ k, x i k * y k j
  | .truediv => fun i j => x i j / y i j
  | .pow => fun i j => x i j ^ ⌊y i j⌋₊
  | .le => fun i j => if x i j ≤ y i j then 1 else 0
  | .ge => fun i j => if x i j ≥ y i j then 1 else 0
  | .lt => fun i j => if x i j < y i j then 1 else 0
  | .gt => fun i j => if x i j > y i j then 1 else 0
  | .eq => fun i j => if x i j = y i j then 1 else 0
  | .ne => fun i j => if x i j ≠ y i j then 1 else 0
  | .floordiv | .mod | .lshift | .rshift | .and | .or | .xor => 0

/-- The matrix that an expression denotes. -/
def Expr.value : Expr n → Mat n
  | .const v => v.mat
  | .bin op a b => op.value a.value b.value
  | .neg a => fun i j => -a.value i j

/-- whether a value is an `MPCTensor` -/
def Val.isSecret : Val n → Bool
  | .secret _ _ => true
  | _ => false

/-- whether an expression has a secret in it -/
def Expr.isSecret : Expr n → Bool
  | .const v => v.isSecret
  | .bin _ a b => a.isSecret || b.isSecret
  | .neg a => a.isSecret

/-- all elements are multiples of `u` -/
def Mat.OnGrid (u : ℚ) (x : Mat n) : Prop := ∀ i j, ∃ k : Int, x i j = k * u

/-- The operators that secrets have, with what the methods ask for.  The reciprocal counts as exact where the approximation is. -/
def OpFine (C : Ctx n) (op : BinOp) (a b : Expr n) : Prop :=
  match op with
  | .add | .sub | .mul | .matmul => True
  | .truediv =>
    (b.isSecret = true ∧ (a.isSecret = true → C.parties ≤ 2) ∧ ∀ i j, C.recip (b.value i j) = (b.value i j)⁻¹)
    ∨ (a.isSecret = true ∧ ∃ k : Int, k ≠ 0 ∧ b = .const (.int k))
    ∨ (a.isSecret = true ∧ ∃ m : Fin n → Fin n → Int, (∀ i j, m i j ≠ 0) ∧ b = .const (.long m))
  | .pow => a.isSecret = true ∧ ∃ k : Int, 1 ≤ k ∧ b = .const (.int k)
  | .le | .ge | .eq | .ne => C.compares = true
  | .lt | .gt => C.compares = true ∧ 0 < C.unit ∧ Mat.OnGrid C.unit a.value ∧ Mat.OnGrid C.unit b.value
  | .floordiv | .mod | .lshift | .rshift | .and | .or | .xor => False

/-- Expressions that use only what secrets have; every operator has a secret on one side at least. -/
def Expr.Fine (C : Ctx n) : Expr n → Prop
  | .const _ => True
  | .bin op a b => a.Fine C ∧ b.Fine C ∧ (a.isSecret = true ∨ b.isSecret = true) ∧ OpFine C op a b
  | .neg a => ∃ v : Val n, v.isSecret = false ∧ a = .const v

/-- The operators with a gradient function. -/
def BinOp.Differentiable (op : BinOp) : Prop := op ∈ [BinOp.add, .sub, .mul, .matmul, .truediv, .pow]

/-- An expression is tracked if a tensor with `requires_grad` is connected to its result by differentiable operators.  A public
number on the left keeps the connection for `+`, `*`, `/` and breaks it for `-` and `@`. -/
inductive Expr.Tracked : Expr n → Prop
  | leaf (v : Mat n) : Tracked (.const (.secret v true))
  | left {op a b} : op.Differentiable → a.Tracked → Tracked (.bin op a b)
  | right {op a b} : op.Differentiable → a.isSecret = true → b.Tracked → Tracked (.bin op a b)
  | reflected {op a b} : (op = .add ∨ op = .mul ∨ op = .truediv) → a.isSecret = false → b.Tracked → Tracked (.bin op a b)

end SyMPC.Operators
