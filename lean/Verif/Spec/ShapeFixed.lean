import Verif.Spec.Shape
import Verif.Spec.Accuracy
import Verif.Model.ShapeFixed

/-!
# How far the results of a program with shapes and fixed point numbers may be from the true ones

The true results are those of torch on rational numbers.  The errors are computed by the same program on pairs of a number and a bound
for its error.  `S` is the scale of the encoder.
-/

namespace SyMPC.Shape

open Tensor
open FixedPointEncoder (Val)
open Program (Estimate given numOf)

instance : Add Estimate := ⟨fun a b => ⟨a.num + b.num, a.err + b.err⟩⟩
instance : Sub Estimate := ⟨fun a b => ⟨a.num - b.num, a.err + b.err⟩⟩
instance : Mul Estimate := ⟨fun a b => ⟨a.num * b.num, |a.num| * b.err + |b.num| * a.err + a.err * b.err⟩⟩

/-- the division by the scale may be off by `t` quanta -/
def rounded (S t : ℚ) (a : Estimate) : Estimate := ⟨a.num, a.err + t / S⟩

/-- a step, and its result before the division by the scale -/
def Step.estimate (S t : ℚ) (env : List (Tensor Estimate)) (st : Step Val) : Py (Tensor Estimate × List (Tensor Estimate)) := do
  let r ← (st.map (given S)).clear env
  return if st.truncated then (Grad.map (rounded S t) r, [r]) else (r, [])

/-- all tensors of a program, and all results before the division by the scale -/
def estimate (S t : ℚ) : List (Step Val) → List (Tensor Estimate) → Py (List (Tensor Estimate) × List (Tensor Estimate))
  | [], env => .ok (env, [])
  | st :: prog, env => do
    let r ← st.estimate S t env
    let rest ← estimate S t prog (env ++ [r.1])
    return (rest.1, r.2 ++ rest.2)

/-- all elements of the tensor are encoded without overflow -/
def Encodes (S : ℚ) (t : Tensor Val) : Prop := ∀ o, ValidIdx t.shape o → (given S (t.at_ o)).Room S

/-- so for the public operand of a step -/
def Step.Encodes (S : ℚ) (st : Step Val) : Prop := ∀ op i y, st = .public op i y → Shape.Encodes S y.plain

/-- the elements have room in 64 bits before the division by the scale -/
def Narrow (S : ℚ) (t : Tensor Estimate) : Prop := ∀ o, ValidIdx t.shape o → (|(t.at_ o).num| + (t.at_ o).err) * S * S < 2 ^ 63

/-- a condition on what was drawn for a division by the scale and on the secret that is divided, at all of its elements -/
def Throughout {W : Type} (Good : W × Secret I64 → List Nat → Prop) (p : W × Secret I64) : Prop :=
  ∀ s, p.2.shape = .size s → ∀ o, ValidIdx s o → Good p o

/-- two parties: the shares do not leave the range of 64 bit integers when they are added -/
def NoWrap (p : Unit × Secret I64) (o : List Nat) : Prop :=
  ∀ a b, p.2.shares = [a, b] → -2 ^ 63 ≤ (a.at_ o).toInt + (b.at_ o).toInt ∧ (a.at_ o).toInt + (b.at_ o).toInt < 2 ^ 63

end SyMPC.Shape
