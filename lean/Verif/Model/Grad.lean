import Verif.Model.Autograd
import Verif.Model.Broadcast
import Verif.Model.Conv
import Verif.Model.Nn
import Mathlib.Algebra.Field.Basic
import Mathlib.Order.Defs.LinearOrder

/-!
# The differentiable operations

`src/sympc/grads/grad_functions.py:92-763`: what each `Grad*` class computes in `forward` and `backward`, on exact tensors: the
rounding of the fixed point representation, of truncations and of the approximations is left out (`div` is exact division,
`sig` stands for the sigmoid function).  An operation of the program is
given by the numbers of the secret tensors and by public tensors; Python numbers and lists are turned into public tensors by
`torch.tensor` (`grad_functions.py:142-143` and similar lines).
-/

namespace SyMPC.Grad

open Tensor Autograd

/-! ## torch on exact tensors -/

section
variable {T : Type}

/-- number of elements -/
def numel : List Nat → Nat
  | [] => 1
  | d :: s => d * numel s

/-- the number of a position in row-major order -/
def flat : List Nat → List Nat → Nat
  | _ :: s, i :: idx => i * numel s + flat s idx
  | _, _ => 0

/-- the position with a given number -/
def unflat : List Nat → Nat → List Nat
  | [], _ => []
  | _ :: s, n => n / numel s :: unflat s (n % numel s)

/-- `x.reshape(s)`; sizes `-1` are not modelled -/
def reshape (x : Tensor T) (s : List Nat) : Py (Tensor T) :=
  if numel s = numel x.shape then .ok ⟨s, fun idx => x.at_ (unflat x.shape (flat s idx))⟩ else .error .runtimeError

/-- the shape of `x.flatten(start_dim=0, end_dim=-1)` (the defaults, `grad_functions.py:463-465`) -/
def flattenShape (s : List Nat) : List Nat := [numel s]

/-- `x.t()`: at most two dimensions -/
def transpose (x : Tensor T) : Py (Tensor T) :=
  match x.shape with
  | [] => .ok x
  | [_] => .ok x
  | [n, m] => .ok ⟨[m, n], fun idx => match idx with
    | [i, j] => x.at_ [j, i]
    | idx => x.at_ idx⟩
  | _ => .error .runtimeError

/-- `x.unsqueeze(0)` -/
def unsqueeze0 (x : Tensor T) : Tensor T := ⟨1 :: x.shape, fun idx => x.at_ idx.tail⟩

/-- `x.unsqueeze(1)` of a tensor with at least one dimension; a tensor without dimensions raises `IndexError` -/
def unsqueeze1 (x : Tensor T) : Py (Tensor T) :=
  match x.shape with
  | [] => .error .indexError
  | d :: s => .ok ⟨d :: 1 :: s, fun idx => x.at_ (idx.eraseIdx 1)⟩

/-- a function applied to each element -/
def map {S : Type} (f : T → S) (x : Tensor T) : Tensor S := ⟨x.shape, fun idx => f (x.at_ idx)⟩

/-- `torch.ones(size=s)` -/
def ones [One T] (s : List Nat) : Tensor T := ⟨s, fun _ => 1⟩

/-- `x.sum()` -/
def sumAll [Add T] [Zero T] (x : Tensor T) : Tensor T := ⟨[], fun _ => ((indices x.shape).map x.at_).sum⟩

/-- `x @ y` for tensors of one or two dimensions (`torch.matmul`); more dimensions are not modelled -/
def matmul [Add T] [Mul T] [Zero T] (x y : Tensor T) : Py (Tensor T) :=
  match x.shape, y.shape with
  | [k], [k'] => if k = k' then .ok ⟨[], fun _ => ((List.range k).map fun l => x.at_ [l] * y.at_ [l]).sum⟩ else .error .runtimeError
  | [n, k], [k'] =>
    if k = k' then .ok ⟨[n], fun idx => ((List.range k).map fun l => x.at_ [idx.getD 0 0, l] * y.at_ [l]).sum⟩
    else .error .runtimeError
  | [k], [k', m] =>
    if k = k' then .ok ⟨[m], fun idx => ((List.range k).map fun l => x.at_ [l] * y.at_ [l, idx.getD 0 0]).sum⟩
    else .error .runtimeError
  | [n, k], [k', m] =>
    if k = k' then
      .ok ⟨[n, m], fun idx => ((List.range k).map fun l => x.at_ [idx.getD 0 0, l] * y.at_ [l, idx.getD 1 0]).sum⟩
    else .error .runtimeError
  | _, _ => .error .runtimeError

end

/-! ## The operations -/

section
variable {R : Type} [Field R] [LinearOrder R] (sig : R → R)

/-- `GradT.backward`, `grad_functions.py:108-120` -/
def gradT (grad : Tensor R) : Py (List (Tensor R)) := do
  let r ← transpose grad
  return [r]

/-- `GradAdd.backward`, `grad_functions.py:146-162` -/
def gradAdd (xShape yShape : List Nat) (grad : Tensor R) : Py (List (Tensor R)) := do
  let xg ← reverseBroadcast grad xShape
  let yg ← reverseBroadcast grad yShape
  return [xg, yg]

/-- `GradSum.backward`, `grad_functions.py:186-200` -/
def gradSum (xShape : List Nat) (grad : Tensor R) : Py (List (Tensor R)) := do
  let r ← zip (· * ·) grad (ones xShape)
  return [r]

/-- `GradSigmoid.backward`, `grad_functions.py:221-234` -/
def gradSigmoid (probs grad : Tensor R) : Py (List (Tensor R)) := do
  let a ← zip (· * ·) grad probs
  let r ← zip (· * ·) a (map (1 - ·) probs)
  return [r]

/-- `GradSub.backward`, `grad_functions.py:260-275` -/
def gradSub (xShape yShape : List Nat) (grad : Tensor R) : Py (List (Tensor R)) := do
  let xg ← reverseBroadcast grad xShape
  let yg ← reverseBroadcast grad yShape
  return [xg, map (-1 * ·) yg]

/-- `GradMul.backward`, `grad_functions.py:300-315` -/
def gradMul (x y grad : Tensor R) : Py (List (Tensor R)) := do
  let xg ← reverseBroadcast (← zip (· * ·) grad y) x.shape
  let yg ← reverseBroadcast (← zip (· * ·) grad x) y.shape
  return [xg, yg]

/-- `GradPow.backward`, `grad_functions.py:345-358`; the power `x ** 0` is the number 1 -/
def gradPow (x : Tensor R) (n : Nat) (grad : Tensor R) : Py (List (Tensor R)) := do
  let r ← zip (· * ·) (map (fun a => a ^ (n - 1) * (n : R)) x) grad
  return [r]

/-- `GradDiv.backward`, `grad_functions.py:384-400` -/
def gradDiv (result y grad : Tensor R) : Py (List (Tensor R)) := do
  let gx ← zip (· / ·) grad y
  let p ← zip (· * ·) gx result
  return [gx, map (-1 * ·) p]

/-- `GradMatMul.backward`, `grad_functions.py:422-457` -/
def gradMatMul (x y grad : Tensor R) : Py (List (Tensor R)) := do
  let (x, xg) := if x.shape.length < 2 then (unsqueeze0 x, unsqueeze0 grad) else (x, grad)
  let (y, yg) ← if y.shape.length < 2 then (do pure (← unsqueeze1 y, ← unsqueeze1 grad)) else pure (y, grad)
  let xg ← matmul xg (← transpose y)
  let yg ← matmul (← transpose x) yg
  if x.shape ≠ xg.shape ∨ y.shape ≠ yg.shape then .error .valueError else return [xg, yg]

/-- `GradReshape.backward` and `GradFlatten.backward`, `grad_functions.py:481-493`, `630-642` -/
def gradReshape (xShape : List Nat) (grad : Tensor R) : Py (List (Tensor R)) := do
  let r ← reshape grad xShape
  return [r]

/-- `GradReLU.backward`, `grad_functions.py:663-676` -/
def gradReLU (mask grad : Tensor R) : Py (List (Tensor R)) := do
  let r ← zip (· * ·) grad mask
  return [r]

/-- the mask of `GradReLU.forward`, `grad_functions.py:660`: `sign(x > 0)` is 1 or 0 -/
def reluMask (a : R) : R := if 0 < a then 1 else 0

/-! ### Convolutions -/

/-- a size given as a number or as a pair -/
inductive Size where
  | one (n : Nat)
  | pair (a b : Nat)
  deriving DecidableEq, Repr

/-- what torch makes of it -/
def Size.both : Size → Nat × Nat
  | .one n => (n, n)
  | .pair a b => (a, b)

/-- the arguments of `conv2d` as they are written in a program -/
structure ConvSizes where
  stride : Size
  padding : Size
  dilation : Size
  groups : Nat
  deriving DecidableEq, Repr

/-- what torch makes of them -/
def ConvSizes.args (a : ConvSizes) : Conv.Args := ⟨a.stride.both, a.padding.both, a.dilation.both, a.groups⟩

/-- One dimension of `torch.nn.grad._grad_input_padding` of torch 1.8.1 for gradient size `g`, input size `n` and kernel size `k`. -/
def inputPadding (g n k s p d : Nat) : Py Nat :=
  let least : Int := ((g : Int) - 1) * s - 2 * p + 1 + d * ((k : Int) - 1)
  if (n : Int) < least ∨ least + s - 1 < n then .error .valueError else .ok (n - least).toNat

/-- `x.repeat(1, k, 1, 1)` of a tensor with four dimensions -/
def repeatChannels {T : Type} (k : Nat) (x : Tensor T) : Py (Tensor T) :=
  match x.shape with
  | [n, c, h, v] => .ok ⟨[n, c * k, h, v], fun idx => match idx with
    | [n, m, i, j] => x.at_ [n, m % c, i, j]
    | idx => x.at_ idx⟩
  | _ => .error .runtimeError

/-- `x.sum(0)` -/
def sumFirst {T : Type} [Add T] [Zero T] (x : Tensor T) : Py (Tensor T) :=
  match x.shape with
  | [] => .error .indexError
  | n :: s => .ok ⟨s, fun idx => Conv.sumTo n fun i => x.at_ (i :: idx)⟩

/-- `x.transpose(0, 1)` -/
def transpose01 {T : Type} (x : Tensor T) : Py (Tensor T) :=
  match x.shape with
  | a :: b :: s => .ok ⟨b :: a :: s, fun idx => match idx with
    | i :: j :: idx => x.at_ (j :: i :: idx)
    | idx => x.at_ idx⟩
  | _ => .error .indexError

/-- `x.narrow(dim, 0, len)` -/
def narrow {T : Type} (dim len : Nat) (x : Tensor T) : Py (Tensor T) :=
  match x.shape[dim]? with
  | none => .error .indexError
  | some n => if n < len then .error .runtimeError else .ok ⟨x.shape.set dim len, x.at_⟩

/-- the gradient of the kernels, `grad_functions.py:570-605` -/
def gradKernel (x grad : Tensor R) (kh kw s p d groups : Nat) : Py (Tensor R) :=
  match x.shape, grad.shape with
  | [n, c, h, v], [_, o, _, _] => do
    let g ← repeatChannels (c / groups) grad
    let g ← reshape g [g.shape.getD 0 0 * g.shape.getD 1 0, 1, g.shape.getD 2 0, g.shape.getD 3 0]
    let x ← reshape x [1, n * c, h, v]
    let wg ← Conv.ConvOp.secret .conv2d ⟨(d, d), (p, p), (s, s), c * n⟩ x g
    let wg ← reshape wg [n, wg.shape.getD 1 0 / n, wg.shape.getD 2 0, wg.shape.getD 3 0]
    let wg ← reshape (← sumFirst wg) [c / groups, o, wg.shape.getD 2 0, wg.shape.getD 3 0]
    let wg ← transpose01 wg
    let wg ← narrow 2 kw wg
    narrow 3 kh wg
  | _, _ => .error .indexError

/-- `GradConv2d.backward`, `grad_functions.py:534-607`.  For stride, padding or dilation given as a pair, `_grad_input_padding` adds and
subtracts tuples and numbers, a `TypeError`.  The paddings that it returns are passed as the padding of the transposed convolution. -/
def gradConv2d (x w : Tensor R) (a : ConvSizes) (grad : Tensor R) : Py (List (Tensor R)) :=
  match x.shape, w.shape, grad.shape with
  | [_, _, h, v], [_, _, kh, kw], [_, _, gh, gv] =>
    match a.stride, a.padding, a.dilation with
    | .one s, .one p, .one d => do
      let oh ← inputPadding gh h kh s p d
      let ov ← inputPadding gv v kw s p d
      let xg ← Conv.ConvOp.secret .convTranspose2d ⟨(s, s), (oh, ov), (d, d), a.groups⟩ grad w
      let wg ← gradKernel x grad kh kw s p d a.groups
      return [xg, wg]
    | _, _, _ => .error .typeError
  | _, _, _ => .error .indexError

/-- `convolution + bias.unsqueeze(1).unsqueeze(1)` for a secret bias, `mpc_tensor.py:508-511`; see `Conv.addBias` -/
def withBias (r b : Tensor R) : Py (Tensor R) :=
  match b.shape with
  | [] => .error .indexError
  | 0 :: _ => .ok r
  | n :: s => zip (· + ·) r ⟨n :: (s ++ [1, 1]), fun idx => b.at_ (idx.take (s.length + 1))⟩

/-- `GradConv2d.forward`, `grad_functions.py:500-532` -/
def convForward (x w : Tensor R) (b : Option (Tensor R)) (a : ConvSizes) : Py (Tensor R × (Tensor R → Py (List (Tensor R)))) := do
  let r ← Conv.ConvOp.secret .conv2d a.args x w
  let r ← match b with
    | none => pure r
    | some b => withBias r b
  return (r, gradConv2d x w a)

/-! ### Max pooling -/

/-- the arguments of `max_pool2d` as they are written in a program -/
structure PoolSizes where
  kernel : SyMPC.Size
  stride : Option SyMPC.Size
  padding : SyMPC.Size
  dilation : SyMPC.Size
  returnIndices : Bool

/-- Place `(y, z)` of a padded image of size `h` x `v`, `functional.py:196-210`: the padding is `-25` quanta of the fixed point
representation; `q` is the quantum. -/
def poolPadded (a : PoolArgs) (q : R) (h v : Nat) (x : Nat → Nat → R) (y z : Nat) : R :=
  if (a.ph ≤ y ∧ y < a.ph + h) ∧ (a.pw ≤ z ∧ z < a.pw + v) then x (y - a.ph) (z - a.pw) else -25 * q

/-- `helper_argmax` with `one_hot=True`, `static.py:155-206`, on `k` exact numbers: a one for each number that no other one exceeds -/
def poolHot (k : Nat) (f : Nat → R) (v : Nat) : R := if ∀ u < k, f u ≤ f v then 1 else 0

/-- `max_mpc`, `static.py:255-286`, on `k` exact numbers: the sum of the marked ones -/
def poolMax (k : Nat) (f : Nat → R) : R := Conv.sumTo k fun v => poolHot k f v * f v

/-- the maximum of a window: first of each row, then of these, `functional.py:297-298` -/
def poolValue (kh kw : Nat) (win : Nat → Nat → R) : R := poolMax kh fun u => poolMax kw (win u)

/-- the marks of a window, `functional.py:307` -/
def poolIndex (kh kw : Nat) (win : Nat → Nat → R) (u v : Nat) : R := poolHot kw (win u) v * poolHot kh (fun u => poolMax kw (win u)) u

/-- the window `(i, j)` of the image of `x` with the leading position `b` -/
def poolWindow (a : PoolArgs) (q : R) (x : Tensor R) (b : List Nat) (i j u v : Nat) : R :=
  poolPadded a q (x.shape.getD (x.shape.length - 2) 0) (x.shape.getD (x.shape.length - 1) 0) (fun y z => x.at_ (b ++ [y, z]))
    (i * a.sh + u) (j * a.sw + v)

/-- `max_pool2d` after the check of the arguments, `functional.py:284-310`, of a tensor with `d` leading dimensions: the result and the
indices -/
def poolRun (a : PoolArgs) (q : R) (x : Tensor R) : Py (Tensor R × Tensor R) :=
  let d := x.shape.length - 2
  let h := x.shape.getD d 0
  let v := x.shape.getD (x.shape.length - 1) 0
  if x.shape.length < 2 then .error .indexError
  else if h + 2 * a.ph < a.kh ∨ v + 2 * a.pw < a.kw then .error .valueError
  else if a.sh = 0 ∨ a.sw = 0 then .error .zeroDivision
  else
    let out := x.shape.take d ++ [poolOut h a.kh a.sh a.ph, poolOut v a.kw a.sw a.pw]
    .ok (⟨out, fun o => poolValue a.kh a.kw (poolWindow a q x (o.take d) (o.getD d 0) (o.getD (d + 1) 0))⟩,
      ⟨out ++ [a.kh, a.kw], fun o => poolIndex a.kh a.kw (poolWindow a q x (o.take d) (o.getD d 0) (o.getD (d + 1) 0))
        (o.getD (d + 2) 0) (o.getD (d + 3) 0)⟩)

/-- element `(y, z)` of the tensor that the loops of `max_pool2d_backward_helper` fill, `functional.py:350-366`: the sum over the windows
that contain it -/
def poolScatter (a : PoolArgs) (oh ov : Nat) (m : List Nat → R) (b : List Nat) (y z : Nat) : R :=
  Conv.sumTo oh fun i => Conv.sumTo ov fun j =>
    if (i * a.sh ≤ y ∧ y < i * a.sh + a.kh) ∧ (j * a.sw ≤ z ∧ z < j * a.sw + a.kw) then m (b ++ [i, j, y - i * a.sh, z - j * a.sw]) else 0

/-- `max_pool2d_backward_helper`, `functional.py:313-381`, on exact tensors.  With four dimensions the slices of lines 368-371 go from the
padding to the size of the input without padding. -/
def poolHelper (xShape : List Nat) (m : Tensor R) (a : PoolArgs) : Py (Tensor R) :=
  let d := xShape.length - 2
  let h := xShape.getD d 0
  let v := xShape.getD (xShape.length - 1) 0
  if h + 2 * a.ph < a.kh ∨ v + 2 * a.pw < a.kw then .error .valueError
  else if a.sh = 0 ∨ a.sw = 0 then .error .zeroDivision
  else
    let size := if xShape.length = 4 then [h - a.ph, v - a.pw] else [h, v]
    .ok ⟨xShape.take d ++ size, fun o =>
      poolScatter a (poolOut h a.kh a.sh a.ph) (poolOut v a.kw a.sw a.pw) m.at_ (o.take d) (o.getD d 0 + a.ph) (o.getD (d + 1) 0 + a.pw)⟩

/-- `max_pool2d_backward`, `functional.py:384-440`, on exact tensors -/
def poolBackward (xShape : List Nat) (indices : Tensor R) (s : PoolSizes) (grad : Tensor R) : Py (List (Tensor R)) := do
  let a ← poolArgs s.kernel s.stride s.padding s.dilation
  if grad.shape.length ≠ 4 ∧ grad.shape.length ≠ 3 then .error .valueError
  else if indices.shape.length ≠ grad.shape.length + 2 then .error .valueError
  else do
    let view : Tensor R := ⟨grad.shape ++ [1, 1], fun o => grad.at_ (o.take grad.shape.length)⟩
    let m ← zip (fun p g => g * p) indices view
    let r ← poolHelper xShape m a
    return [r]

/-- `GradMaxPool2D.forward`, `grad_functions.py:682-740`, with two parties.  With `return_indices=True` the result is a pair, which has no
attribute `requires_grad` (`grad_functions.py:788`).  The errors of lines 715-718 are
raised by the check of the arguments here. -/
def poolForward (q : R) (x : Tensor R) (s : PoolSizes) : Py (Tensor R × (Tensor R → Py (List (Tensor R)))) := do
  let a ← poolArgs s.kernel s.stride s.padding s.dilation
  let (r, indices) ← poolRun a q x
  if s.returnIndices then .error .attributeError else return (r, poolBackward x.shape indices s)

/-- The operations in `GRAD_FUNCS` (`grad_functions.py:798-813`) that are modelled.  Operands are numbers of tensors; a public
operand is given as a tensor. -/
inductive Op (R : Type) where
  | t (x : Nat)
  | add (x y : Nat)
  | addPub (x : Nat) (y : Tensor R)
  | sub (x y : Nat)
  | subPub (x : Nat) (y : Tensor R)
  | mul (x y : Nat)
  | mulPub (x : Nat) (y : Tensor R)
  | sum (x : Nat)
  | pow (x n : Nat)
  | div (x y : Nat)
  | divPub (x : Nat) (y : Tensor R)
  | matmul (x y : Nat)
  | matmulPub (x : Nat) (y : Tensor R)
  | reshape (x : Nat) (s : List Nat)
  | flatten (x : Nat)
  | sigmoid (x : Nat)
  | relu (x : Nat)
  /-- `x.conv2d(w, None, stride, padding, dilation, groups)` -/
  | conv2d (x w : Nat) (a : ConvSizes)
  /-- `x.conv2d(w, b, stride, padding, dilation, groups)` with a secret bias -/
  | conv2dBias (x w b : Nat) (a : ConvSizes)
  /-- `x.conv2d(weight=w, bias=b, ...)`, as `Conv2d.forward` calls it (`module/nn/conv.py:64-83`) -/
  | conv2dLayer (x w : Nat) (b : Option Nat) (a : ConvSizes)
  /-- `max_pool2d(x, ...)` in a session whose numbers are multiples of `q` -/
  | maxPool2d (x : Nat) (q : R) (s : PoolSizes)

/-- the secret operands: `mpc_tensor_params`, `grad_functions.py:780`; operands given by keyword are not among them -/
def Op.parents : Op R → List Nat
  | .t x => [x]
  | .add x y => [x, y]
  | .addPub x _ => [x]
  | .sub x y => [x, y]
  | .subPub x _ => [x]
  | .mul x y => [x, y]
  | .mulPub x _ => [x]
  | .sum x => [x]
  | .pow x _ => [x]
  | .div x y => [x, y]
  | .divPub x _ => [x]
  | .matmul x y => [x, y]
  | .matmulPub x _ => [x]
  | .reshape x _ => [x]
  | .flatten x => [x]
  | .sigmoid x => [x]
  | .relu x => [x]
  | .conv2d x w _ => [x, w]
  | .conv2dBias x w b _ => [x, w, b]
  | .conv2dLayer x _ _ _ => [x]
  | .maxPool2d x _ _ => [x]

/-- A two operand class with its saved context. -/
def binary (f : Tensor R → Tensor R → Py (Tensor R)) (back : Tensor R → Tensor R → Tensor R → Tensor R → Py (List (Tensor R)))
    (x y : Tensor R) : Py (Tensor R × (Tensor R → Py (List (Tensor R)))) := do
  let r ← f x y
  return (r, back r x y)

/-- `grad_fn.forward`: the result, and `grad_fn.backward` with the saved context. -/
def Op.forward (val : Nat → Tensor R) : Op R → Py (Tensor R × (Tensor R → Py (List (Tensor R))))
  | .t x => do
    let r ← transpose (val x)
    return (r, gradT)
  | .add x y => binary (zip (· + ·)) (fun _ x y => gradAdd x.shape y.shape) (val x) (val y)
  | .addPub x y => binary (zip (· + ·)) (fun _ x y => gradAdd x.shape y.shape) (val x) y
  | .sub x y => binary (zip (· - ·)) (fun _ x y => gradSub x.shape y.shape) (val x) (val y)
  | .subPub x y => binary (zip (· - ·)) (fun _ x y => gradSub x.shape y.shape) (val x) y
  | .mul x y => binary (zip (· * ·)) (fun _ x y => gradMul x y) (val x) (val y)
  | .mulPub x y => binary (zip (· * ·)) (fun _ x y => gradMul x y) (val x) y
  | .sum x => .ok (sumAll (val x), gradSum (val x).shape)
  | .pow x n =>
    -- `x ** 0` is the Python number 1, which has no attribute `requires_grad` (`grad_functions.py:788`)
    if n = 0 then .error .attributeError else .ok (map (· ^ n) (val x), gradPow (val x) n)
  | .div x y => binary (zip (· / ·)) (fun r _ y => gradDiv r y) (val x) (val y)
  | .divPub x y => binary (zip (· / ·)) (fun r _ y => gradDiv r y) (val x) y
  | .matmul x y => binary Grad.matmul (fun _ x y => gradMatMul x y) (val x) (val y)
  | .matmulPub x y => binary Grad.matmul (fun _ x y => gradMatMul x y) (val x) y
  | .reshape x s => do
    let r ← Grad.reshape (val x) s
    return (r, gradReshape (val x).shape)
  | .flatten x => do
    let r ← Grad.reshape (val x) (flattenShape (val x).shape)
    return (r, gradReshape (val x).shape)
  | .sigmoid x => .ok (map sig (val x), gradSigmoid (map sig (val x)))
  | .relu x => .ok (map (fun a => a * reluMask a) (val x), gradReLU (map reluMask (val x)))
  | .conv2d x w a => convForward (val x) (val w) none a
  | .conv2dBias x w b a => convForward (val x) (val w) (some (val b)) a
  | .conv2dLayer x w b a => convForward (val x) (val w) (b.map val) a
  | .maxPool2d x q s => poolForward q (val x) s

/-! ## Programs -/

/-- A step of a program: a new tensor, a recorded operation, or the same computation by a method that is not in `GRAD_FUNCS`
(for example `rsub` computes its difference by `__apply_op`, `mpc_tensor.py:441-450`, not by `sub`). -/
inductive Step (R : Type) where
  | leaf (req : Bool)
  | op (o : Op R)
  | untracked (o : Op R)

/-- the values of the tensors, and the graph -/
structure State (R : Type) where
  val : Nat → Tensor R
  graph : Graph (Tensor R)

/-- One step; `leaves i` is the value of the new tensor number `i`. -/
def step (leaves : Nat → Tensor R) (S : State R) : Step R → Py (State R)
  | .leaf req =>
    let x := leaves S.graph.size
    .ok ⟨Function.update S.val S.graph.size x, S.graph.leaf x.shape req⟩
  | .op o => do
    let (r, fn) ← o.forward sig S.val
    return ⟨Function.update S.val S.graph.size r, (S.graph.forward o.parents (.ok (r.shape, fn))).2⟩
  | .untracked o => do
    let (r, _) ← o.forward sig S.val
    return ⟨Function.update S.val S.graph.size r, S.graph.leaf r.shape false⟩

/-- a session with recording switched on and no tensors -/
def State.empty : State R := ⟨fun _ => ⟨[], fun _ => 0⟩, Graph.empty⟩

/-- A program from the empty session. -/
def run (leaves : Nat → Tensor R) (prog : List (Step R)) : Py (State R) := prog.foldlM (step sig leaves) State.empty

/-- sum of gradients, `mpc_tensor.py:951`: tensors of the same shape (`self.grad + gradient`) -/
def addT (a b : Tensor R) : Tensor R := ⟨a.shape, fun i => a.at_ i + b.at_ i⟩

/-- `loss.backward()` on tensor number `r` -/
def backward (depth r : Nat) (S : State R) : Py Unit × Graph (Tensor R) := S.graph.backwardLoss addT ones depth r

end

end SyMPC.Grad
