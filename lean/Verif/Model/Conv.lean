import Verif.Model.Broadcast
import Verif.Model.Spdz

/-!
# Two-dimensional convolutions

`torch.conv2d` and `torch.conv_transpose2d`, which the code calls at every party, and the methods `conv2d` and
`conv_transpose2d` of `src/sympc/tensor/mpc_tensor.py`
-/

namespace SyMPC.Conv

open Tensor

/-- the keyword arguments of a convolution; the pairs belong to the two dimensions of an image -/
structure Args where
  stride : Nat × Nat
  padding : Nat × Nat
  dilation : Nat × Nat
  groups : Nat
  deriving DecidableEq, Repr

/-- torch's defaults, which a call without keyword arguments uses -/
def Args.default : Args := ⟨(1, 1), (0, 0), (1, 1), 1⟩

/-- Python's `sum(f(i) for i in range(n))` -/
def sumTo {T : Type} [Add T] [Zero T] (n : Nat) (f : Nat → T) : T := ((List.range n).map f).sum

/-- The size of the result along one dimension: image size `n`, kernel size `k`, stride `s`, padding `p`, dilation `d`.  torch
refuses a kernel that does not fit into the padded image, and sizes that are not positive. -/
def outDim (n k s p d : Nat) : Py Nat :=
  if s = 0 ∨ d = 0 ∨ k = 0 ∨ n + 2 * p < d * (k - 1) + 1 then .error .runtimeError else .ok ((n + 2 * p - d * (k - 1) - 1) / s + 1)

/-- the shape of `torch.conv2d` for an image `[n, c, h, v]` and kernels `[o, ci, kh, kw]` -/
def convShape (a : Args) : List Nat → List Nat → Py (List Nat)
  | [n, c, h, v], [o, ci, kh, kw] =>
    if a.groups = 0 ∨ o < a.groups ∨ o % a.groups ≠ 0 ∨ c ≠ ci * a.groups then .error .runtimeError
    else do
      let i ← outDim h kh a.stride.1 a.padding.1 a.dilation.1
      let j ← outDim v kw a.stride.2 a.padding.2 a.dilation.2
      return [n, o, i, j]
  | _, _ => .error .runtimeError

/-- the size of the result of a transposed convolution along one dimension -/
def outDimT (n k s p d : Nat) : Py Nat :=
  if s = 0 ∨ d = 0 ∨ k = 0 ∨ n = 0 ∨ (n - 1) * s + d * (k - 1) < 2 * p then .error .runtimeError
  else .ok ((n - 1) * s + d * (k - 1) + 1 - 2 * p)

/-- the shape of `torch.conv_transpose2d` for an image `[n, c, h, v]` and kernels `[c', o, kh, kw]` -/
def convTShape (a : Args) : List Nat → List Nat → Py (List Nat)
  | [n, c, h, v], [c', o, kh, kw] =>
    if a.groups = 0 ∨ c ≠ c' ∨ c % a.groups ≠ 0 then .error .runtimeError
    else do
      let i ← outDimT h kh a.stride.1 a.padding.1 a.dilation.1
      let j ← outDimT v kw a.stride.2 a.padding.2 a.dilation.2
      return [n, o * a.groups, i, j]
  | _, _ => .error .runtimeError

section
variable {T : Type} [Add T] [Mul T] [Zero T]

/-- an element of the image with a border of zeros -/
def padded (h v p q : Nat) (x : List Nat → T) (n c i j : Nat) : T :=
  if p ≤ i ∧ i < p + h ∧ q ≤ j ∧ j < q + v then x [n, c, i - p, j - q] else 0

/-- The elements of `torch.conv2d`.  Kernel number `m` reads the channels of its group. -/
def convAt (a : Args) (xs ws : List Nat) (x w : List Nat → T) (idx : List Nat) : T :=
  match xs, ws, idx with
  | [_, _, h, v], [o, ci, kh, kw], [n, m, i, j] =>
    sumTo ci fun c => sumTo kh fun p => sumTo kw fun q =>
      padded h v a.padding.1 a.padding.2 x n (m / (o / a.groups) * ci + c) (i * a.stride.1 + p * a.dilation.1)
        (j * a.stride.2 + q * a.dilation.2) * w [m, c, p, q]
  | _, _, _ => 0

/-- The element of a row of length `n` that the kernel position `p` spreads to place `i` of the result, if any. -/
def spreadFrom (n s p d i k : Nat) : Option Nat :=
  if k * d ≤ i + p ∧ (i + p - k * d) % s = 0 ∧ (i + p - k * d) / s < n then some ((i + p - k * d) / s) else none

/-- an element of the image, or 0 -/
def readOr (x : List Nat → T) (n c : Nat) : Option Nat → Option Nat → T
  | some i, some j => x [n, c, i, j]
  | _, _ => 0

/-- The elements of `torch.conv_transpose2d`: channel `m` of the result is made of the channels of its group. -/
def convTAt (a : Args) (xs ws : List Nat) (x w : List Nat → T) (idx : List Nat) : T :=
  match xs, ws, idx with
  | [_, c, h, v], [_, o, kh, kw], [n, m, i, j] =>
    sumTo (c / a.groups) fun e => sumTo kh fun p => sumTo kw fun q =>
      readOr x n (m / o * (c / a.groups) + e) (spreadFrom h a.stride.1 a.padding.1 a.dilation.1 i p)
        (spreadFrom v a.stride.2 a.padding.2 a.dilation.2 j q) * w [m / o * (c / a.groups) + e, m % o, p, q]
  | _, _, _ => 0

/-- the two operations -/
inductive ConvOp where
  | conv2d | convTranspose2d
  deriving DecidableEq, Repr

/-- the shape of the result -/
def ConvOp.shape : ConvOp → Args → List Nat → List Nat → Py (List Nat)
  | .conv2d => convShape
  | .convTranspose2d => convTShape

/-- the elements of the result -/
def ConvOp.at : ConvOp → Args → List Nat → List Nat → (List Nat → T) → (List Nat → T) → List Nat → T
  | .conv2d => convAt
  | .convTranspose2d => convTAt

/-- the call of torch -/
def ConvOp.run (op : ConvOp) (a : Args) (x w : Tensor T) : Py (Tensor T) := do
  let s ← op.shape a x.shape w.shape
  return ⟨s, op.at a x.shape w.shape x.at_ w.at_⟩

/-- `x.conv2d(w, None, ...)` and `x.conv_transpose2d(w, None, ...)` of two secrets on exact numbers: `__apply_private_op`
(`mpc_tensor.py:685-687`) computes the shape a second time, without the keyword arguments, and torch may refuse that. -/
def ConvOp.secret (op : ConvOp) (a : Args) (x w : Tensor T) : Py (Tensor T) := do
  let r ← op.run a x w
  let _ ← op.shape .default x.shape w.shape
  return r

end

/-! ## On shares -/

/-- the key of the stores: operation and shapes, `beaver.py:370, 400, 453, 483` -/
abbrev ConvKey := ConvOp × List Nat × List Nat

/-- the stores with triples for convolutions -/
abbrev ConvWorld := World ConvKey (fun _ => List Nat → I64) (fun _ => List Nat → I64) fun _ => List Nat → I64

/-- the randomness of the triples -/
abbrev ConvRand := (k : ConvKey) → Nat → TripleRand (List Nat → I64) (List Nat → I64) (List Nat → I64)

/-- `res_share.tensor //= scale` of a product of two parties, `spdz.py:171-176` -/
def convTrunc (c : Config) (z : List Nat → I64) : List Nat → I64 :=
  fun i => floordiv (z i) (BitVec.ofNat 64 (c.encoderBase ^ c.encoderPrecision))

/-- a secret tensor with the shape that the orchestrator knows -/
structure Secret where
  tensor : MPCTensor (List Nat → I64)
  shape : List Nat

/-- The operation of the triples. -/
def convOp (k : ConvKey) (a : Args) (x w : List Nat → I64) : List Nat → I64 := k.1.at a k.2.1 k.2.2 x w

/-- `__apply_op(weight, "conv2d", kwargs)` and `"conv_transpose2d"`, `mpc_tensor.py:672-692, 827-862`.  `divide` is the division by the
scale that `truncate` (783-825) does for three and more parties, modelled by `publicDivideT`; a single party never
divides.  A public kernel is refused: the module `operator` has no convolutions (`mpc_tensor.py:737`).  Simplification: of several
errors the first one of the code may be another one, and the triples taken by a failing call are not part of the result. -/
def applyConv (env : Env) (rnd : ConvRand) (divide : MPCTensor (List Nat → I64) → Py (MPCTensor (List Nat → I64))) (op : ConvOp)
    (a : Args) (x : Secret) (weight : Secret ⊕ Tensor I64) (w : ConvWorld) : Py (Secret × ConvWorld) :=
  match weight with
  | .inr _ => .error .attributeError
  | .inl y => do
    MPCTensor.checkPrivate x.tensor.session y.tensor.session
    if x.tensor.session.protocol.shareClass = .replicated then .error .notImplemented
    else do
      let s ← op.shape a x.shape y.shape
      let (out, w) ← mulMaster env convOp (fun _ => convTrunc) rnd (op, x.shape, y.shape) a w x.tensor y.tensor
      let _ ← op.shape .default x.shape y.shape
      let z ← if 2 < x.tensor.session.nrParties then divide out.result else .ok out.result
      return (⟨z, s⟩, w)

/-- the bias of a convolution: `None`, a public tensor or a secret -/
inductive Bias where
  | none
  | pub (b : Tensor FixedPointEncoder.Val)
  | secret (b : Secret)

/-- a public number that is zero -/
def valZero : FixedPointEncoder.Val → Bool
  | .int z => z = 0
  | .long z => z = 0
  | .float q => q = 0

/-- `if bias:`, `mpc_tensor.py:508, 547`.  A tensor of torch has a truth value if it has one element; an `MPCTensor` is true if its
length (`__len__`, 864-870) is not 0. -/
def Bias.truth : Bias → Py Bool
  | .none => .ok false
  | .pub b => if b.shape.prod = 1 then .ok (!valZero (b.at_ (b.shape.map fun _ => 0))) else .error .runtimeError
  | .secret b => match b.shape with
    | [] => .error .indexError
    | n :: _ => .ok (n != 0)

/-- `bias.unsqueeze(1).unsqueeze(1)` of a bias of one dimension, as it is repeated over a result with four dimensions.
Simplification: repeated before the addition of the shares and not during it. -/
def spreadBias {T : Type} (bs : List Nat) (b : List Nat → T) (idx : List Nat) : T := b ((sourceIdx (bs ++ [1, 1]) idx).take bs.length)

/-- `convolution + bias.unsqueeze(1).unsqueeze(1)` if there is a bias, `mpc_tensor.py:508-511, 547-550` -/
def addBias (env : Env) (bias : Bias) (r : Secret) : Py Secret := do
  let t ← bias.truth
  if t then
    match bias with
    | .none => return r
    | .pub b => do
      let s ← broadcastShape r.shape (b.shape ++ [1, 1])
      let z ← MPCTensor.applyPublicLin env .add r.tensor (spreadBias b.shape b.at_)
      return ⟨z, s⟩
    | .secret b => do
      let s ← broadcastShape r.shape (b.shape ++ [1, 1])
      let y ← MPCTensor.hookMethod (spreadBias b.shape) b.tensor
      let z ← MPCTensor.applyPrivateLin (P := Empty) env .add r.tensor y
      return ⟨z, s⟩
  else return r

/-- `conv2d` and `conv_transpose2d`, `mpc_tensor.py:474-550` -/
def conv (env : Env) (rnd : ConvRand) (divide : MPCTensor (List Nat → I64) → Py (MPCTensor (List Nat → I64))) (op : ConvOp) (a : Args)
    (x : Secret) (weight : Secret ⊕ Tensor I64) (bias : Bias) (w : ConvWorld) : Py (Secret × ConvWorld) := do
  let (r, w) ← applyConv env rnd divide op a x weight w
  let r ← addBias env bias r
  return (r, w)

end SyMPC.Conv
