import Verif.Model.Regression

/-!
# Training a linear layer on secrets

As in `Regression`, for the module `Linear` with a bias: `pred = linear(x)`, `loss = mse_loss(pred, y, "sum")`, `loss.backward()`,
`optimizer.step()` and `optimizer.zero_grad()`, the optimizer being `SGD(list(linear.parameters()), lr)`.
-/

namespace SyMPC.LinearTraining

open Tensor Shape
open FixedPointEncoder (Val)
open Regression (Batch)

/-- One round with the weight at position `w`, the bias at `c`, the batch at `x` and `y`, and the gradient of the loss (a secret one) at
`one`; `b` tensors exist before.  `n` rows, `m` outputs.  `lr` is the learning rate as `torch.tensor` holds it. -/
def round (n m : Nat) (lr : Val) (w c x y one b : Nat) : List (Step Val) :=
  [ -- `Linear.forward`, `linear.py:44-59`: `x @ self.weight.t()`, `res + self.bias`
    .method .t w,
    .both .matmul x b,
    .both .add (b + 1) c,
    -- `mse_loss`, `functional.py:54-74`: `pred - target`
    .both .sub (b + 2) y,
    -- `.pow(2)`, `mpc_tensor.py:636-653`: `base * base`, `result = 1 * base`, `base * base`
    .both .mul (b + 3) (b + 3),
    .public .mul (b + 4) (.number (.int 1)),
    .both .mul (b + 4) (b + 4),
    -- `.sum()`, `grad_functions.py:168-184`
    .method .sum (b + 5),
    -- `loss.backward()`, `mpc_tensor.py:928-973`: `GradSum.backward`, `grad_functions.py:186-200`
    .public .mul one (.tensor ⟨[n, m], fun _ => .float 1⟩),
    -- `GradPow.backward`, `grad_functions.py:345-360`: `x ** 1`, `* 2`, `* grad`
    .public .mul (b + 3) (.number (.int 1)),
    .both .mul (b + 3) (b + 3),
    .public .mul (b + 9) (.number (.int 2)),
    .both .mul (b + 11) (b + 8),
    -- `GradSub.backward`, `grad_functions.py:260-275`: `_reverse_broadcast` changes nothing, `-1 * y_grad`
    .public .mul (b + 12) (.number (.int (-1))),
    -- `GradAdd.backward`, `grad_functions.py:146-162`: `_reverse_broadcast` (`grad_functions.py:27-51`) sums the gradient of the bias with
    -- `res.sum([0])`, which is `res.sum(0)`
    .method (.sumDim 0 false) (b + 12),
    -- `GradMatMul.backward`, `grad_functions.py:422-456`
    .method .clone (b + 12),
    .method .clone (b + 12),
    .method .t b,
    .both .matmul (b + 15) (b + 17),
    .method .t x,
    .both .matmul (b + 19) (b + 16),
    -- `GradT.backward`, `grad_functions.py:108-120`
    .method .t (b + 20),
    -- `SGD.step`, `sgd.py:24-35`, for the weight and the bias: `grad * lr` (`GradMul.forward` makes `lr` a tensor,
    -- `grad_functions.py:295-299`), `isub`
    .public .mul (b + 21) (.tensor ⟨[], fun _ => lr⟩),
    .both .sub w (b + 22),
    .public .mul (b + 14) (.tensor ⟨[], fun _ => lr⟩),
    .both .sub c (b + 24)]

/-- the number of tensors that a round makes -/
def size : Nat := 26

/-- All rounds.  The batch of the first of these rounds is at the position `p` (rows, targets, gradient of the loss), the weight is at `w`,
the bias at `c`. -/
def rounds (m : Nat) (lr : Val) : List Batch → (w c p b : Nat) → List (Step Val)
  | [], _, _, _, _ => []
  | e :: l, w, c, p, b => round e.n m lr w c p (p + 1) (p + 2) b ++ rounds m lr l (b + 23) (b + 25) (p + 3) (b + size)

/-- the positions of the weight and the bias after the rounds -/
def final : List Batch → (w c b : Nat) → Nat × Nat
  | [], w, c, _ => (w, c)
  | _ :: l, _, _, b => final l (b + 23) (b + 25) (b + size)

/-- What the parties share at the beginning: the parameters (`linear.py:77-114`), and for each batch the rows, the targets and
`torch.ones([])` (`mpc_tensor.py:943-946`). -/
def inputs (w c : Tensor Val) (l : List Batch) : List (Tensor Val) :=
  w :: c :: l.flatMap fun e => [e.x, e.y, ⟨[], fun _ => .float 1⟩]

/-- the training loop with the batches `l` -/
def training (m : Nat) (lr : Val) (l : List Batch) : List (Step Val) := rounds m lr l 0 1 2 (2 + 3 * l.length)

end SyMPC.LinearTraining
