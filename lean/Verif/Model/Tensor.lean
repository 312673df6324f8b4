import Verif.Model.Share

/-!
# Tensors with a shape, and the functions whose content is shape arithmetic

`src/sympc/tensor/static.py`.  A tensor is a shape with a function from index lists to elements; only indices that
are valid for the shape matter.
-/

namespace SyMPC

/-- a torch tensor -/
structure Tensor (T : Type) where
  shape : List Nat
  at_ : List Nat → T

namespace Tensor

variable {T : Type}

/-- `idx` is a position of a tensor of the given shape. -/
def ValidIdx : List Nat → List Nat → Prop
  | [], [] => True
  | d :: ds, i :: is => i < d ∧ ValidIdx ds is
  | _, _ => False

/-- Two tensors are the same: same shape and same elements. -/
def Same (a b : Tensor T) : Prop := a.shape = b.shape ∧ ∀ idx, ValidIdx a.shape idx → a.at_ idx = b.at_ idx

/-- Element-wise sum of tensors of one shape (other shapes are not needed here and refused). -/
def add [Add T] (a b : Tensor T) : Py (Tensor T) :=
  if a.shape = b.shape then .ok ⟨a.shape, fun i => a.at_ i + b.at_ i⟩ else .error .runtimeError

/-- Python's `sum` of tensors (`share_tensor.py:537-540`). -/
def sum [Add T] : List (Tensor T) → Py (Tensor T)
  | [] => .error .valueError
  | a :: l => l.foldlM add a

/-- Which tensor and which position in it the position `i` along the concatenated dimension belongs to, given the sizes
of the tensors along that dimension. -/
def locate : List Nat → Nat → Nat × Nat
  | [], i => (0, i)
  | d :: ds, i => if i < d then (0, i) else let p := locate ds (i - d); (p.1 + 1, p.2)

/-- `torch.cat(tensors, dim)`: all shapes must agree except in dimension `dim`. -/
def cat (ts : List (Tensor T)) (dim : Nat) : Py (Tensor T) :=
  match ts with
  | [] => .error .runtimeError
  | t :: _ =>
    if t.shape.length ≤ dim then .error .indexError
    else if ts.all (fun u => u.shape.length = t.shape.length ∧ u.shape.eraseIdx dim = t.shape.eraseIdx dim) then
      let sizes := ts.map fun u => u.shape.getD dim 0
      .ok ⟨t.shape.set dim sizes.sum, fun idx =>
        let p := locate sizes (idx.getD dim 0)
        match ts[p.1]? with
        | some u => u.at_ (idx.set dim p.2)
        | none => t.at_ idx⟩
    else .error .runtimeError

/-- `torch.stack(tensors, dim)`: all shapes must agree; a new dimension is inserted. -/
def stack (ts : List (Tensor T)) (dim : Nat) : Py (Tensor T) :=
  match ts with
  | [] => .error .runtimeError
  | t :: _ =>
    if t.shape.length < dim then .error .indexError
    else if ts.all (fun u => u.shape = t.shape) then
      .ok ⟨t.shape.insertIdx dim ts.length, fun idx =>
        match ts[idx.getD dim 0]? with
        | some u => u.at_ (idx.eraseIdx dim)
        | none => t.at_ idx⟩
    else .error .runtimeError

/-- a one dimensional tensor with given elements (used in examples) -/
def ofList [Inhabited T] (l : List T) : Tensor T := ⟨[l.length], fun idx => l.getD (idx.getD 0 0) default⟩

/-- a matrix with given rows (used in examples) -/
def ofRows [Inhabited T] (l : List (List T)) : Tensor T :=
  ⟨[l.length, (l.getD 0 []).length], fun idx => (l.getD (idx.getD 0 0) []).getD (idx.getD 1 0) default⟩

/-- all elements of a matrix, row by row (used in examples) -/
def rows (t : Tensor T) : List (List T) :=
  (List.range (t.shape.getD 0 0)).map fun i => (List.range (t.shape.getD 1 0)).map fun j => t.at_ [i, j]

end Tensor

/-- What a secret tensor carries besides its shares: the shape the orchestrator believes in. -/
structure ShapedShares (T : Type) where
  shape : List Nat
  shares : List (Tensor T)

/-- reconstruction of the shares -/
def ShapedShares.reconstruct {T : Type} [Add T] (x : ShapedShares T) : Py (Tensor T) := Tensor.sum x.shares

/-- `stack`, `static.py:26-73` with additive shares: every party stacks its shares along dimension 0, whatever `dim`
is (line 72); only the expected shape uses `dim` (line 49).  Sessions and uuids are left out; the tensors are assumed to
belong to one session with `n` parties. -/
def stackSecret {T : Type} (n : Nat) (ts : List (ShapedShares T)) (dim : Nat) : Py (ShapedShares T) := do
  let shares ← (List.range n).mapM fun r => do
    let local_ ← ts.mapM fun t => pyGet t.shares r
    Tensor.stack local_ 0
  let expected ← Tensor.stack (ts.map fun t => (⟨t.shape, fun _ => ()⟩ : Tensor Unit)) dim
  return ⟨expected.shape, shares⟩

/-- `cat`, `static.py:76-126` with additive shares (protocol FSS): as above, the shares ignore `dim` (line 125). -/
def catSecret {T : Type} (n : Nat) (ts : List (ShapedShares T)) (dim : Nat) : Py (ShapedShares T) := do
  let shares ← (List.range n).mapM fun r => do
    let local_ ← ts.mapM fun t => pyGet t.shares r
    Tensor.cat local_ 0
  let expected ← Tensor.cat (ts.map fun t => (⟨t.shape, fun _ => ()⟩ : Tensor Unit)) dim
  return ⟨expected.shape, shares⟩

end SyMPC
