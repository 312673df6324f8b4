import Verif.Model.Py
import Mathlib.Logic.Equiv.Fin.Basic
import Mathlib.Algebra.Order.Field.Rat

/-!
# Algorithms on secrets

`src/sympc/algorithms/algorithms.py`, `src/sympc/tensor/static.py`, `src/sympc/approximations`,
`src/sympc/module/nn/functional.py`

These functions only use operators of `MPCTensor`.  They are written here over a record of such operators, so that they can
be run on the modelled tensors as well as on exact numbers.  `X n` are the secrets with `n` elements (flattened), `m` the
monad of the operators (exceptions, crypto stores, randomness), `F` the type of the clear-text numbers (`ℚ` for
the numbers of a program; a larger field can be put in its place to speak about limits).
-/

namespace SyMPC

/-- The operators of `MPCTensor` used by the algorithms. -/
structure SecretOps (m : Type → Type) (X : Nat → Type) (F : Type) where
  /-- an exception -/
  raise : {α : Type} → PyErr → m α
  /-- `x + y`, `x - y`, `x * y` of two secrets -/
  add : {n : Nat} → X n → X n → m (X n)
  sub : {n : Nat} → X n → X n → m (X n)
  mul : {n : Nat} → X n → X n → m (X n)
  /-- `x + c`, `x - c`, `c - x`, `x * c` with a public number -/
  addP : {n : Nat} → X n → F → m (X n)
  subP : {n : Nat} → X n → F → m (X n)
  rsubP : {n : Nat} → F → X n → m (X n)
  mulP : {n : Nat} → X n → F → m (X n)
  /-- `x / d` with a public integer -/
  divP : {n : Nat} → X n → Nat → m (X n)
  /-- `x > y` of two secrets; `x > c`, `x < c`, `x >= c` with a public number -/
  gt : {n : Nat} → X n → X n → m (X n)
  gtP : {n : Nat} → X n → F → m (X n)
  ltP : {n : Nat} → X n → F → m (X n)
  geP : {n : Nat} → X n → F → m (X n)
  /-- `x * t` with a public tensor -/
  mulT : {n : Nat} → X n → (Fin n → F) → m (X n)
  /-- a view of the elements (`flatten`, `roll`, `expand`, indexing, ...): element `j` of the result is element `σ j` -/
  view : {n k : Nat} → (Fin k → Fin n) → X n → m (X k)
  /-- the elements with padding, `functional.py:173-234`: element `j` of the result is element `i` if `σ j` is `some i`, and the
  padding value if it is `none` -/
  pad : {n k : Nat} → (Fin k → Option (Fin n)) → X n → m (X k)
  /-- sums of the elements: element `j` of the result is the sum of the elements in the list `f j` -/
  sums : {n k : Nat} → (Fin k → List (Fin n)) → X n → m (X k)
  /-- `x.reconstruct()` -/
  reconstruct : {n : Nat} → X n → m (Fin n → F)

variable {m : Type → Type} [Monad m] {X : Nat → Type} {F : Type} {n : Nat}

/-! ## sort -/

/-- The body of the inner loop of `sort`, `algorithms.py:44-49`.  The last case is the `IndexError` that the ranges of
the loops exclude. -/
def cswap [One F] (O : SecretOps m X F) (l : List (X n)) (j : Nat) : m (List (X n)) :=
  match l[j]?, l[j + 1]? with
  | some a, some b => do
    let check ← O.gt a b
    let negCheck ← O.rsubP 1 check
    let a' ← O.add (← O.mul negCheck a) (← O.mul check b)
    let b' ← O.add (← O.mul negCheck b) (← O.mul check a)
    return (l.set j a').set (j + 1) b'
  | _, _ => O.raise .indexError

/-- the inner loop, `algorithms.py:41-49` -/
def bubblePass [One F] (O : SecretOps m X F) (l : List (X n)) (k : Nat) : m (List (X n)) :=
  (List.range k).foldlM (cswap O) l

/-- the two loops, `algorithms.py:37-49` -/
def bubble [One F] (O : SecretOps m X F) (l : List (X n)) : m (List (X n)) :=
  (List.range (l.length - 1)).foldlM (fun l' i => bubblePass O l' (l.length - i - 1)) l

/-- `sort`, `algorithms.py:12-55`; `shapeOk` tells for each item whether its `shape` is `torch.Size([1])`.  The second
component is the caller's list afterwards: it is changed in place. -/
def sort [One F] (O : SecretOps m X F) (l : List (X 1)) (shapeOk : List Bool) (ascending : Bool) :
    m (List (X 1) × List (X 1)) :=
  if !shapeOk.all (· = true) then O.raise .valueError
  else do
    let r ← bubble O l
    return (if ascending then r else r.reverse, r)

/-! ## argmax and max -/

/-- How a tensor with `n` elements is divided along a dimension into `rows` fibres of length `len`: the position of element
`j` of fibre `r`, and the fibre and index of a position.  For `dim=None` there is one fibre. -/
structure Layout (n : Nat) where
  rows : Nat
  len : Nat
  pos : Fin rows → Fin len → Fin n
  row : Fin n → Fin rows
  col : Fin n → Fin len
  pos_row_col : ∀ p, pos (row p) (col p) = p
  row_pos : ∀ r j, row (pos r j) = r
  col_pos : ∀ r j, col (pos r j) = j

/-- one fibre: a vector (`x.flatten()`, `static.py:183`) -/
def Layout.flat (n : Nat) : Layout n where
  rows := 1
  len := n
  pos := fun _ j => j
  row := fun _ => 0
  col := fun p => p
  pos_row_col := fun _ => rfl
  row_pos := fun _ _ => (Fin.eq_zero _).symm
  col_pos := fun _ _ => rfl

/-- the middle one of three dimensions, in the order of the memory of a tensor (`finProdFinEquiv (i, j)` is `i * n + j`);
any dimension of a tensor is the middle one, if those before it and those after it are taken together -/
def Layout.middle (a d b : Nat) : Layout (a * d * b) where
  rows := a * b
  len := d
  pos := fun r j => finProdFinEquiv (finProdFinEquiv ((finProdFinEquiv.symm r).1, j), (finProdFinEquiv.symm r).2)
  row := fun p => finProdFinEquiv ((finProdFinEquiv.symm (finProdFinEquiv.symm p).1).1, (finProdFinEquiv.symm p).2)
  col := fun p => (finProdFinEquiv.symm (finProdFinEquiv.symm p).1).2
  pos_row_col := fun p => by
    simp only [Equiv.symm_apply_apply, Prod.mk.eta, Equiv.apply_symm_apply]
  row_pos := fun r j => by
    simp only [Equiv.symm_apply_apply, Prod.mk.eta, Equiv.apply_symm_apply]
  col_pos := fun r j => by simp

/-- `row_length` for a dimension of length `l`, `static.py:204, 306` -/
def rowLength (l : Nat) : Nat := if l > 1 then l else 2

/-- The place that `roll(i + 1, dims=dim)` brings to position `p`, `static.py:313`. -/
def Layout.rolled (L : Layout n) (i : Nat) (p : Fin n) : Fin n :=
  L.pos (L.row p) ⟨((L.col p).val + (L.len - (i + 1) % L.len)) % L.len, Nat.mod_lt _ (L.col p).pos⟩

variable [IntCast F]

/-- `helper_argmax_pairwise`, `static.py:289-319`: the differences of each element to the others of its fibre.
Simplification: the code subtracts share by share at the parties, the model uses the operator `-`. -/
def argmaxPairwise (O : SecretOps m X F) (L : Layout n) (x : X n) : m (X ((rowLength L.len - 1) * n)) := do
  let a ← O.view (fun q => (finProdFinEquiv.symm q).2) x
  let b ← O.view (fun q => L.rolled (finProdFinEquiv.symm q).1 (finProdFinEquiv.symm q).2) x
  O.sub a b

/-- `helper_argmax` with `one_hot=True`, `static.py:155-206`.  `last` is the length `x.shape[_dim]` that line 204 reads
(for `dim=None`, that of the last dimension of `x`, which is not flattened there). -/
def argmaxHot (O : SecretOps m X F) (L : Layout n) (last : Nat) (x : X n) : m (X n) := do
  let d ← argmaxPairwise O L x
  let comparisons ← O.geP d ((0 : Int) : F)
  let result ← O.sums (fun p => (List.finRange (rowLength L.len - 1)).map fun i => finProdFinEquiv (i, p)) comparisons
  O.geP result (((rowLength last - 1 : Nat) : Int) : F)

/-- `x.argmax()`, `static.py:155-249` with `dim=None`; `last` as above. -/
def argmaxAll [DecidableEq F] [Zero F] (O : SecretOps m X F) (last : Nat) (x : X n) : m (X 1) := do
  let result ← argmaxHot O (Layout.flat n) last x
  let check ← O.mulT result fun p => ((p.val : Int) : F)
  let argmax ← O.sums (fun _ : Fin 1 => List.finRange n) check
  let many ← O.geP argmax (((rowLength last : Nat) : Int) : F)
  let v ← O.reconstruct many
  if v 0 ≠ 0 then O.raise .valueError else return argmax

/-- `x.argmax(dim)`, `static.py:155-249`: one index for each fibre. -/
def argmaxDim (O : SecretOps m X F) (L : Layout n) (x : X n) : m (X L.rows) := do
  let result ← argmaxHot O L L.len x
  let check ← O.mulT result fun p => (((L.col p).val : Int) : F)
  O.sums (fun r => (List.finRange L.len).map (L.pos r)) check

/-- `x.max()` of a tensor with one dimension, `static.py:255-286` with `dim=None`.  With more dimensions the product of line 270 is one
of tensors with different shapes: `Model/ArgmaxShape.lean`. -/
def maxAll (O : SecretOps m X F) (x : X n) : m (X 1) := do
  let hot ← argmaxHot O (Layout.flat n) n x
  let prod ← O.mul hot x
  O.sums (fun _ : Fin 1 => List.finRange n) prod

/-- `x.max(dim)`, `static.py:255-286` with `one_hot=False`: maxima and their indices. -/
def maxDim (O : SecretOps m X F) (L : Layout n) (x : X n) : m (X L.rows × X L.rows) := do
  let hot ← argmaxHot O L L.len x
  let prod ← O.mul hot x
  let check ← O.mulT hot fun p => (((L.col p).val : Int) : F)
  let idx ← O.sums (fun r => (List.finRange L.len).map (L.pos r)) check
  let mx ← O.sums (fun r => (List.finRange L.len).map (L.pos r)) prod
  return (mx, idx)

end SyMPC
