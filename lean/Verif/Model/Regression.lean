import Verif.Model.ShapeFixed

/-!
# Training a linear model on secrets

The calls that a training loop for a linear model makes on secrets: `pred = x @ w`, `loss = mse_loss(pred, y, "sum")`,
`loss.backward()`, `optimizer.step()` and `optimizer.zero_grad()`, round after round.  The calls of every function are listed in order, also
those whose results nobody uses; positions are those of all tensors in the order of their creation.
-/

namespace SyMPC.Regression

open Tensor Shape
open FixedPointEncoder (Val)

/-- One round with the weights at position `w`, the batch at `x` and `y`, and the gradient of the loss (a secret one) at `one`; `b` tensors
exist before.  `n` rows, `m` outputs.  `lr` is the learning rate as `torch.tensor` holds it. -/
def round (n m : Nat) (lr : Val) (w x y one b : Nat) : List (Step Val) :=
  [ -- `pred = x @ w`, `grad_functions.py:407-420`
    .both .matmul x w,
    -- `mse_loss`, `functional.py:54-74`: `pred - target`, `grad_functions.py:240-258`
    .both .sub b y,
    -- `.pow(2)`, `mpc_tensor.py:636-653`: `base * base`, `result = 1 * base`, `base * base`
    .both .mul (b + 1) (b + 1),
    .public .mul (b + 2) (.number (.int 1)),
    .both .mul (b + 2) (b + 2),
    -- `.sum()`, `grad_functions.py:168-184`
    .method .sum (b + 3),
    -- `loss.backward()`, `mpc_tensor.py:928-973`: `GradSum.backward`, `grad_functions.py:186-200`
    .public .mul one (.tensor ⟨[n, m], fun _ => .float 1⟩),
    -- `GradPow.backward`, `grad_functions.py:345-360`: `x ** 1`, `* 2`, `* grad`
    .public .mul (b + 1) (.number (.int 1)),
    .both .mul (b + 1) (b + 1),
    .public .mul (b + 7) (.number (.int 2)),
    .both .mul (b + 9) (b + 6),
    -- `GradSub.backward`, `grad_functions.py:260-275`: `_reverse_broadcast` changes nothing, `-1 * y_grad`
    .public .mul (b + 10) (.number (.int (-1))),
    -- `GradMatMul.backward`, `grad_functions.py:422-456`
    .method .clone (b + 10),
    .method .clone (b + 10),
    .method .t w,
    .both .matmul (b + 12) (b + 14),
    .method .t x,
    .both .matmul (b + 16) (b + 13),
    -- `SGD.step`, `sgd.py:24-35`: `grad * lr` (`GradMul.forward` makes `lr` a tensor, `grad_functions.py:295-299`), `isub`
    .public .mul (b + 17) (.tensor ⟨[], fun _ => lr⟩),
    .both .sub w (b + 18)]

/-- the number of tensors that a round makes -/
def size : Nat := 20

/-- A batch: the number of rows, the rows and the targets. -/
structure Batch where
  n : Nat
  x : Tensor Val
  y : Tensor Val

/-- All rounds.  The batch of the first of these rounds is at the position `p` (rows, targets, gradient of the loss), the weights are at `w`. -/
def rounds (m : Nat) (lr : Val) : List Batch → (w p b : Nat) → List (Step Val)
  | [], _, _, _ => []
  | e :: l, w, p, b => round e.n m lr w p (p + 1) (p + 2) b ++ rounds m lr l (b + 19) (p + 3) (b + size)

/-- the position of the weights after the rounds -/
def final : List Batch → (w b : Nat) → Nat
  | [], w, _ => w
  | _ :: l, _, b => final l (b + 19) (b + size)

/-- What the parties share at the beginning: the weights, and for each batch the rows, the targets and `torch.ones([])`
(`mpc_tensor.py:943-946`). -/
def inputs (w : Tensor Val) : List Batch → List (Tensor Val)
  | l => w :: l.flatMap fun e => [e.x, e.y, ⟨[], fun _ => .float 1⟩]

/-- the training loop with the batches `l` -/
def training (m : Nat) (lr : Val) (l : List Batch) : List (Step Val) := rounds m lr l 0 1 (1 + 3 * l.length)

end SyMPC.Regression
