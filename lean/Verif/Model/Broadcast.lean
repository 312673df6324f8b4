import Verif.Model.Tensor
import Mathlib.Algebra.BigOperators.Group.List.Basic

/-!
# Broadcasting, sums over dimensions, and `_reverse_broadcast`

`src/sympc/grads/grad_functions.py:27-51`.  The sums are torch's, applied to the shared secrets: by C16 a method that adds or
moves elements commutes with reconstruction, so the model works on the secrets.
-/

namespace SyMPC.Tensor

variable {T : Type}

/-- All positions of a tensor of the given shape, in row-major order. -/
def indices : List Nat → List (List Nat)
  | [] => [[]]
  | d :: ds => (List.range d).flatMap fun i => (indices ds).map (i :: ·)

/-- The position of an operand of shape `w` that torch reads for the position `idx` of the result: shapes are aligned at the
end, and a dimension of size 1 is repeated. -/
def sourceIdx (w idx : List Nat) : List Nat :=
  List.zipWith (fun d i => if d = 1 then 0 else i) w (idx.drop (idx.length - w.length))

/-- torch's broadcasting of two sizes -/
def broadcastDim (a b : Nat) : Py Nat :=
  if a = b then .ok a else if a = 1 then .ok b else if b = 1 then .ok a else .error .runtimeError

/-- the same for shapes given from the last dimension to the first -/
def broadcastRev : List Nat → List Nat → Py (List Nat)
  | [], y => .ok y
  | x, [] => .ok x
  | a :: x, b :: y => do
    let d ← broadcastDim a b
    let ds ← broadcastRev x y
    return d :: ds

/-- torch's broadcasting of two shapes -/
def broadcastShape (x y : List Nat) : Py (List Nat) := List.reverse <$> broadcastRev x.reverse y.reverse

/-- A torch operation that acts element by element on two tensors. -/
def zip {A B C : Type} (f : A → B → C) (x : Tensor A) (y : Tensor B) : Py (Tensor C) := do
  let s ← broadcastShape x.shape y.shape
  return ⟨s, fun idx => f (x.at_ (sourceIdx x.shape idx)) (y.at_ (sourceIdx y.shape idx))⟩

/-- `x.sum(list(range(k)))` -/
def sumLeading [Add T] [Zero T] (k : Nat) (x : Tensor T) : Py (Tensor T) :=
  if x.shape.length < k then .error .indexError
  else .ok ⟨x.shape.drop k, fun idx => ((indices (x.shape.take k)).map fun p => x.at_ (p ++ idx)).sum⟩

/-- `x.sum(dim, keepdim=True)` -/
def sumKeep [Add T] [Zero T] (dim : Nat) (x : Tensor T) : Py (Tensor T) :=
  match x.shape[dim]? with
  | none => .error .indexError
  | some n => .ok ⟨x.shape.set dim 1, fun idx => ((List.range n).map fun i => x.at_ (idx.set dim i)).sum⟩

/-- the body of the loop of `_reverse_broadcast`, `grad_functions.py:47-49` -/
def reverseStep [Add T] [Zero T] (wanted : List Nat) (res : Tensor T) (dim : Nat) : Py (Tensor T) :=
  match wanted[dim]?, res.shape[dim]? with
  | some w, some n => if w = 1 ∧ 1 < n then sumKeep dim res else .ok res
  | _, _ => .error .indexError

/-- `_reverse_broadcast`, `grad_functions.py:27-51` -/
def reverseBroadcast [Add T] [Zero T] (x : Tensor T) (wanted : List Nat) : Py (Tensor T) := do
  let res ← if wanted.length < x.shape.length then sumLeading (x.shape.length - wanted.length) x else .ok x
  (List.range res.shape.length).foldlM (reverseStep wanted) res

end SyMPC.Tensor
