import Verif.Model.Shape
import Mathlib.Algebra.Ring.Defs
import Mathlib.Order.Defs.LinearOrder

/-!
# `argmax` and `max` of secret tensors with any shape

`src/sympc/tensor/static.py:155-319`.  The arithmetic is exact, on the shared values: that a sum or a method on shares is one on the
values is C66, what products and comparisons of shares compute is C41 (`Props/Argmax.lean`), which works on tensors of one layout and
leaves the shapes open.  Here the shapes, the numbering of dimensions, the broadcasting and the exceptions are torch's.
-/

namespace SyMPC.Argmax

open Tensor Shape

variable {R : Type}

/-- Python's `s[d]` for a tuple or list and a number that may be negative -/
def sizeAt (s : List Nat) (d : Int) : Py Nat :=
  if 0 ≤ d then pyGet s d.toNat
  else if -(s.length : Int) ≤ d then pyGet s (d + s.length).toNat
  else .error .indexError

/-- Python's `s[d] = n`, which changes the list -/
def setSize (s : List Nat) (d : Int) (n : Nat) : Py (List Nat) :=
  if 0 ≤ d ∧ d < s.length then .ok (s.set d.toNat n)
  else if -(s.length : Int) ≤ d ∧ d < 0 then .ok (s.set (d + s.length).toNat n)
  else .error .indexError

/-- `row_length`, `static.py:203-204` and `308-309` -/
def rowLength (s : List Nat) (dim : Option Int) : Py Nat := do
  let n ← sizeAt s (dim.getD (-1))
  return if 1 < n then n else 2

/-- `tensor.expand(k, *tensor.shape)` -/
def expand (k : Nat) (x : Tensor R) : Tensor R := ⟨k :: x.shape, fun o => x.at_ o.tail⟩

/-- `tensor.roll(k, dims=d)`: what was at `i` goes to `(i + k) % n` -/
def roll (k : Nat) (d : Int) (x : Tensor R) : Py (Tensor R) := do
  let d ← normDim x.shape.length d
  let n := x.shape.getD d 0
  return ⟨x.shape, fun o => x.at_ (o.set d ((o.getD d 0 + (n - k % n)) % n))⟩

/-- `helper_argmax_pairwise`, `static.py:289-319` -/
def pairwise [Sub R] (x : Tensor R) (dim : Option Int) : Py (Tensor R) := do
  let n ← rowLength x.shape dim
  let a := expand (n - 1) x
  let rolled ← (List.range (n - 1)).mapM fun i => roll (i + 1) (dim.getD (-1)) x
  let b ← stack rolled 0
  zip (· - ·) a b

variable [Ring R] [LinearOrder R]

/-- `x >= c` for a number `c`, `mpc_tensor.py:1082-1093`: the number becomes a secret of shape `(1,)`. -/
def geNumber (x : Tensor R) (c : R) : Py (Tensor R) := zip (fun b a => if b ≤ a then 1 else 0) ⟨[1], fun _ => c⟩ x

/-- `torch.Tensor([i for i in range(n)])` -/
def arange (n : Nat) : Tensor R := ⟨[n], fun o => (o.getD 0 0 : Nat)⟩

/-- the one hot part of `helper_argmax`, `static.py:182-208`; the numbers of line 204 come from the tensor before it was flattened -/
def oneHot (x : Tensor R) (dim : Option Int) : Py (Tensor R) := do
  let prep ← match dim with
    | none => Method.flatten.run x
    | some _ => .ok x
  let pairs ← pairwise prep dim
  let comparisons ← geNumber pairs 0
  let n ← rowLength x.shape dim
  let result ← (Method.sumDim 0 false).run comparisons
  geNumber result ((n - 1 : Nat) : R)

/-- the product with the numbers of the entries along a dimension, `static.py:214-218` and `276-280` -/
def numbered (hot : Tensor R) (d : Int) : Py (Tensor R) := do
  let n ← sizeAt hot.shape d
  let size ← setSize (hot.shape.map fun _ => 1) d n
  let numbers ← (Method.view (size.map fun k : Nat => (k : Int))).run (arange (R := R) n)
  zip (· * ·) hot numbers

/-- `argmax`, `static.py:155-249` with `one_hot=False` -/
def argmax (x : Tensor R) (dim : Option Int) (keepdim : Bool) : Py (Tensor R) := do
  let hot ← oneHot x dim
  match dim with
  | none => do
    let check ← zip (· * ·) hot (arange (Grad.numel hot.shape))
    let res ← Method.sum.run check
    let n ← rowLength x.shape none
    let many ← geNumber res (n : R)
    if many.at_ [0] = 1 then .error .valueError else return res
  | some d => do
    let check ← numbered hot d
    (Method.sumDim d keepdim).run check

/-- `max` of a secret tensor, `static.py:255-286`: without `dim` only the maximum is returned -/
def maxMpc (x : Tensor R) (dim : Option Int) (keepdim oneHotIndices : Bool) : Py (Tensor R × Option (Tensor R)) := do
  let hot ← oneHot x dim
  let prod ← zip (· * ·) hot x
  match dim with
  | none => do
    let res ← Method.sum.run prod
    return (res, none)
  | some d => do
    let indices ← if oneHotIndices then .ok hot else do
      let check ← numbered hot d
      (Method.sumDim d keepdim).run check
    let res ← (Method.sumDim d keepdim).run prod
    return (res, some indices)

end SyMPC.Argmax
