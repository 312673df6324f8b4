import Verif.Model.Shape

/-!
# Programs on torch tensors

What the programs of `Model/Shape.lean` compute in the clear.
-/

namespace SyMPC.Shape

open Tensor

variable {T : Type}

/-- the operand as torch sees it: numbers have no dimensions -/
def Operand.plain : Operand T → Tensor T
  | .number a => ⟨[], fun _ => a⟩
  | .tensor t => t

variable [Add T] [Sub T] [Mul T] [Zero T]

/-- the step on torch tensors -/
def Step.clear (env : List (Tensor T)) : Step T → Py (Tensor T)
  | .both op i j => do op.run (← pyGet env i) (← pyGet env j)
  | .public op i y => do op.run (← pyGet env i) y.plain
  | .method m i => do m.run (← pyGet env i)

/-- a program on torch tensors, with all intermediate results -/
def clear : List (Step T) → List (Tensor T) → Py (List (Tensor T))
  | [], env => .ok env
  | st :: prog, env => do
    let r ← st.clear env
    clear prog (env ++ [r])

end SyMPC.Shape
