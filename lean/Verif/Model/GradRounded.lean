import Verif.Model.Grad

/-!
# Training with rounding errors

In a session the tensors of a program are not the exact ones of `Model/Grad.lean`: new tensors are encoded with the precision of the
session (`src/sympc/encoder/fp_encoder.py:34-55`), and what `forward` and `backward` of the `Grad*` classes compute
(`src/sympc/grads/grad_functions.py:92-763`) carries the errors of truncations and approximations.  Here the errors are given: one for each
element of each new tensor, and one for each element of each gradient that a `backward` returns.  The errors inside one `forward` or
`backward` are not told apart from the error of its result.
-/

namespace SyMPC.Grad

open Tensor Autograd

section
variable {R : Type} [Field R] [LinearOrder R] (sig : R → R)

/-- the errors of a run -/
structure Errors (R : Type) where
  /-- of element `o` of tensor number `i` -/
  fwd : Nat → List Nat → R
  /-- of element `o` of what tensor number `i` sends to its `k`-th operand -/
  bwd : Nat → Nat → List Nat → R

/-- a tensor with errors -/
def plus (x : Tensor R) (e : List Nat → R) : Tensor R := ⟨x.shape, fun o => x.at_ o + e o⟩

/-- `grad_fn.backward` of tensor number `i` with errors, `grad_functions.py:74-89` -/
def inexact (E : Errors R) (i : Nat) (fn : Tensor R → Py (List (Tensor R))) (grad : Tensor R) : Py (List (Tensor R)) := do
  let gs ← fn grad
  return gs.mapIdx fun k g => plus g (E.bwd i k)

/-- One step with errors, `grad_functions.py:766-795`; see `step`. -/
def stepE (E : Errors R) (leaves : Nat → Tensor R) (S : State R) : Step R → Py (State R)
  | .leaf req =>
    let x := plus (leaves S.graph.size) (E.fwd S.graph.size)
    .ok ⟨Function.update S.val S.graph.size x, S.graph.leaf x.shape req⟩
  | .op o => do
    let (r, fn) ← o.forward sig S.val
    let r := plus r (E.fwd S.graph.size)
    return ⟨Function.update S.val S.graph.size r, (S.graph.forward o.parents (.ok (r.shape, inexact E S.graph.size fn))).2⟩
  | .untracked o => do
    let (r, _) ← o.forward sig S.val
    let r := plus r (E.fwd S.graph.size)
    return ⟨Function.update S.val S.graph.size r, S.graph.leaf r.shape false⟩

/-- A program with errors from the empty session, `mpc_tensor.py:897-926`. -/
def runE (E : Errors R) (leaves : Nat → Tensor R) (prog : List (Step R)) : Py (State R) := prog.foldlM (stepE sig E leaves) State.empty

end

end SyMPC.Grad
