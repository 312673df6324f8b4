import Verif.Model.Approx

/-!
# The loss, and a public number divided by a secret

`src/sympc/module/nn/functional.py`, `src/sympc/tensor/mpc_tensor.py`
-/

namespace SyMPC

variable {m : Type → Type} [Monad m] {X : Nat → Type} {F : Type} [Field F] {n : Nat}

/-- the argument `reduction` -/
inductive Reduction where
  | mean | sum | other
  deriving DecidableEq, Repr

/-- `(pred - target).pow(2).sum()`, `functional.py:69, 71` -/
def squaresS (O : SecretOps m X F) (pred target : X n) : m (X 1) := do
  let d ← O.sub pred target
  let p ← powSec O d 2
  O.sums (fun _ => List.finRange n) p

/-- `mse_loss`, `functional.py:54-74`; `shape` is `pred.shape`.  Simplification: `pred` and `target` have the same shape. -/
def mseLoss (O : SecretOps m X F) (shape : List Nat) (pred target : X n) : Reduction → m (X 1)
  | .mean => do
    let s ← squaresS O pred target
    match shape with
    | [] => O.raise .indexError
    | k :: _ => O.divP s k
  | .sum => squaresS O pred target
  | .other => O.raise .valueError

/-- `rtruediv`, `mpc_tensor.py:579-589`: `y / x` for a public number `y` -/
def rtruedivS (O : SecretOps m X F) (x : X n) (y : F) : m (X n) := do
  let r ← reciprocalS O x .nr 10
  O.mulP r y

end SyMPC
