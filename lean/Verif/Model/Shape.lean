import Verif.Model.Grad

/-!
# Secret tensors with their shapes

`src/sympc/tensor/mpc_tensor.py`: the shape that an `MPCTensor` reports and the shapes of its shares, which torch computes at the
parties.  Tensors are torch tensors with additive shares; public operands are already encoded; sessions, configurations and the
truncation after products are left out (see `Model/Share.lean`, `Model/Spdz.lean` and `Model/Wraps.lean`), that is, the encoder has
precision 0.
-/

namespace SyMPC.Shape

open Tensor

variable {T : Type}

/-- the attribute `shape`: not known, a Python list, or a `torch.Size` or tuple -/
inductive Reported where
  | unknown
  | list (s : List Nat)
  | size (s : List Nat)
  deriving DecidableEq, Repr

/-- an `MPCTensor`, `mpc_tensor.py:98-112` -/
structure Secret (T : Type) where
  shares : List (Tensor T)
  shape : Reported

/-- a public operand: a `float` or `int`, or a `torch.Tensor` -/
inductive Operand (T : Type) where
  | number (a : T)
  | tensor (t : Tensor T)

/-- the encoded operand: a number becomes a tensor with one element, `fp_encoder.py:53-54` -/
def Operand.enc : Operand T → Tensor T
  | .number a => ⟨[1], fun _ => a⟩
  | .tensor t => t

/-- the shape used for `_get_shape`, `mpc_tensor.py:852-855` -/
def Operand.shape : Operand T → Reported
  | .number _ => .size [1]
  | .tensor t => .size t.shape

/-- the operations of `__apply_op` that are modelled here -/
inductive BinOp where
  | add
  | sub
  | mul
  | matmul
  deriving DecidableEq, Repr

/-- `operator.add` etc. on torch tensors (matrix products of at most two dimensions) -/
def BinOp.run [Add T] [Sub T] [Mul T] [Zero T] : BinOp → Tensor T → Tensor T → Py (Tensor T)
  | .add => zip (· + ·)
  | .sub => zip (· - ·)
  | .mul => zip (· * ·)
  | .matmul => Grad.matmul

/-- the shape of the operation on empty tensors, `mpc_tensor.py:770-781` -/
def BinOp.shape (op : BinOp) (x y : List Nat) : Py (List Nat) :=
  Tensor.shape <$> op.run (⟨x, fun _ => 0⟩ : Tensor Int) ⟨y, fun _ => 0⟩

/-- `MPCTensor._get_shape`, `mpc_tensor.py:759-781`.  `lru_cache` hashes the shapes, so that a list raises `TypeError`. -/
def getShape (op : BinOp) : Reported → Reported → Py Reported
  | .list _, _ => .error .typeError
  | _, .list _ => .error .typeError
  | .unknown, _ => .error .valueError
  | _, .unknown => .error .valueError
  | .size x, .size y => .size <$> op.shape x y

/-- `MPCTensor(secret=x)` for a number or a tensor, `mpc_tensor.py:166-193` with `sanity_checks`, `mpc_tensor.py:211-253`, and
`generate_shares`, `mpc_tensor.py:280-357`: the drawn tensors `draws` have the shape of the secret (as `generateShares` in
`Model/Share.lean`).  With fewer than two parties the list of drawn tensors is empty. -/
def ofSecret [Sub T] (secret : Operand T) (nrParties : Nat) (draws : Nat → List Nat → T) : Py (Secret T) :=
  if nrParties < 2 then .error .indexError
  else
    let s := secret.enc.shape
    let share : Nat → List Nat → T := fun k i =>
      if k = 0 then draws 0 i else if k < nrParties - 1 then draws k i - draws (k - 1) i else secret.enc.at_ i - draws (k - 1) i
    .ok ⟨(List.range nrParties).map fun k => ⟨s, share k⟩, .size s⟩

/-- `__apply_private_op` for `add` and `sub`, `mpc_tensor.py:704-715`; `zip` stops at the shorter list -/
def applyPrivate [Add T] [Sub T] [Mul T] [Zero T] (op : BinOp) (x y : Secret T) : Py (List (Tensor T)) :=
  (x.shares.zip y.shares).mapM fun p => op.run p.1 p.2

/-- `__apply_public_op` with additive shares, `mpc_tensor.py:719-753`: products on every share, sums on the first share only -/
def applyPublic [Add T] [Sub T] [Mul T] [Zero T] (op : BinOp) (x : Secret T) (y : Operand T) : Py (List (Tensor T)) :=
  match op with
  | .mul => x.shares.mapM fun s => BinOp.mul.run s y.enc
  | .matmul => x.shares.mapM fun s => BinOp.matmul.run s y.enc
  | op =>
    match x.shares with
    | [] => .error .indexError
    | s :: rest => do
      let s ← op.run s y.enc
      return s :: rest

/-- `__apply_op`, `mpc_tensor.py:827-862`, with a public operand -/
def opPublic [Add T] [Sub T] [Mul T] [Zero T] (op : BinOp) (x : Secret T) (y : Operand T) : Py (Secret T) := do
  let shares ← applyPublic op x y
  let shape ← getShape op x.shape y.shape
  return ⟨shares, shape⟩

/-- `__apply_op`, `mpc_tensor.py:827-862`, for `add` and `sub` of two secrets -/
def opPrivate [Add T] [Sub T] [Mul T] [Zero T] (op : BinOp) (x y : Secret T) : Py (Secret T) := do
  let shares ← applyPrivate op x y
  let shape ← getShape op x.shape y.shape
  return ⟨shares, shape⟩

/-- `isub`, `mpc_tensor.py:417-428`: the shares are replaced and the shape is kept -/
def isubPublic [Add T] [Sub T] [Mul T] [Zero T] (x : Secret T) (y : Operand T) : Py (Secret T) := do
  let r ← opPublic .sub x y
  return ⟨r.shares, x.shape⟩

/-- `truediv` by a public tensor in a session of two parties, `mpc_tensor.py:591-619` and `spdz.py:191-196`: every share is divided, the
reported shape is that of `x` -/
def dividePublic (dv : T → T → T) (x : Secret T) (y : Tensor T) : Py (Secret T) := do
  let shares ← x.shares.mapM fun s => zip dv s y
  return ⟨shares, x.shape⟩

/-! ### Products of secrets -/

/-- the shares of a Beaver triple -/
structure Triple (T : Type) where
  a : List (Tensor T)
  b : List (Tensor T)
  c : List (Tensor T)

/-- `reconstruct` without decoding, `share_tensor.py:537-540`: Python's `sum`, so that torch broadcasts -/
def sumShares [Add T] : List (Tensor T) → Py (Tensor T)
  | [] => .error .valueError
  | s :: rest => rest.foldlM (zip (· + ·)) s

/-- the shapes that a party uses to look a triple up, and those it was stored with, `spdz.py:116-118` and `beaver.py:188-252`.  The
stores are empty before, so that the triple was generated for the reported shapes (`spdz.py:57-75`). -/
def lookUp (xs ys : List Nat) (x y : Tensor T) : Py Unit :=
  if x.shape = xs ∧ y.shape = ys then .ok () else .error .emptyStore

/-- `tuple(x.shape)`, `spdz.py:57-58` -/
def Reported.tuple : Reported → Py (List Nat)
  | .unknown => .error .typeError
  | .list s => .ok s
  | .size s => .ok s

/-- `mul_parties`, `spdz.py:124-178`, of the party with the given rank, without the truncation -/
def mulParty [Add T] [Sub T] [Mul T] [Zero T] (op : BinOp) (eps delta : Tensor T) (rank : Nat) (a b c : Tensor T) : Py (Tensor T) := do
  let epsB ← op.run eps b
  let deltaA ← op.run a delta
  let s ← zip (· + ·) c epsB
  let s ← zip (· + ·) s deltaA
  if rank = 0 then do
    let epsDelta ← op.run eps delta
    zip (· + ·) s epsDelta
  else return s

/-- what the trusted party draws for a triple: the two random tensors, and the tensors drawn for sharing -/
structure Draws (T : Type) where
  a : List Nat → T
  b : List Nat → T
  sharesA : Nat → List Nat → T
  sharesB : Nat → List Nat → T
  sharesC : Nat → List Nat → T

/-- `_get_triples` for additive shares, `beaver.py:75-100` -/
def deal [Add T] [Sub T] [Mul T] [Zero T] (op : BinOp) (nrParties : Nat) (d : Draws T) (xs ys : List Nat) : Py (Triple T) := do
  let a ← ofSecret (.tensor ⟨xs, d.a⟩) nrParties d.sharesA
  let b ← ofSecret (.tensor ⟨ys, d.b⟩) nrParties d.sharesB
  let c ← op.run ⟨xs, d.a⟩ ⟨ys, d.b⟩
  let c ← ofSecret (.tensor c) nrParties d.sharesC
  return ⟨a.shares, b.shares, c.shares⟩

/-- `mul_master`, `spdz.py:36-98`, of two secrets with a triple that is generated for the reported shapes (`spdz.py:57-75`) -/
def mulMaster [Add T] [Sub T] [Mul T] [Zero T] (op : BinOp) (x y : Secret T) (d : Draws T) : Py (List (Tensor T)) := do
  let xs ← x.shape.tuple
  let ys ← y.shape.tuple
  let t ← deal op x.shares.length d xs ys
  let _ ← (x.shares.zip y.shares).mapM fun p => lookUp xs ys p.1 p.2
  let epsShares ← (x.shares.zip t.a).mapM fun p => BinOp.sub.run p.1 p.2
  let deltaShares ← (y.shares.zip t.b).mapM fun p => BinOp.sub.run p.1 p.2
  let eps ← sumShares epsShares
  let delta ← sumShares deltaShares
  ((t.a.zip (t.b.zip t.c)).zipIdx).mapM fun p => mulParty op eps delta p.2 p.1.1 p.1.2.1 p.1.2.2

/-- `__apply_op`, `mpc_tensor.py:827-862`, for a product of two secrets -/
def opProduct [Add T] [Sub T] [Mul T] [Zero T] (op : BinOp) (x y : Secret T) (d : Draws T) : Py (Secret T) := do
  let shares ← mulMaster op x y d
  let shape ← getShape op x.shape y.shape
  return ⟨shares, shape⟩

/-! ### Forwarded methods -/

/-- torch's numbering of dimensions: `-1` is the last one; a tensor without dimensions counts as one with one dimension -/
def normDim (n : Nat) (d : Int) : Py Nat :=
  let n := max n 1
  if 0 ≤ d ∧ d < n then .ok d.toNat
  else if -(n : Int) ≤ d ∧ d < 0 then .ok (d + n).toNat
  else .error .indexError

/-- the list with two entries exchanged -/
def exchange (i j : Nat) (l : List Nat) : List Nat := (l.set i (l.getD j 0)).set j (l.getD i 0)

/-- the position before the dimensions of size 1 were removed -/
def spread : List Nat → List Nat → List Nat
  | [], _ => []
  | d :: s, o => if d = 1 then 0 :: spread s o else o.headD 0 :: spread s o.tail

/-- the sizes of `reshape`: one of them may be `-1` -/
def resolve (n : Nat) (s : List Int) : Py (List Nat) :=
  if s.any (· < -1) then .error .runtimeError
  else
    let known := Grad.numel ((s.filter (0 ≤ ·)).map Int.toNat)
    match s.count (-1) with
    | 0 => if known = n then .ok (s.map Int.toNat) else .error .runtimeError
    | 1 => if known ≠ 0 ∧ known ∣ n then .ok (s.map fun d => if d = -1 then n / known else d.toNat) else .error .runtimeError
    | _ => .error .runtimeError

/-- the methods and properties of `METHODS_FORWARD_ALL_SHARES` and `PROPERTIES_FORWARD_ALL_SHARES`, `mpc_tensor.py:28-42`.  `view`
differs from `reshape` in refusing some tensors that are not contiguous in memory: the memory is not modelled. -/
inductive Method where
  | t
  | T
  | transpose (i j : Int)
  | unsqueeze (d : Int)
  | squeeze
  | reshape (s : List Int)
  | view (s : List Int)
  | flatten
  | sum
  | sumDim (d : Int) (keep : Bool)
  | narrow (d : Int) (start len : Nat)
  | repeat (k : List Nat)
  | clone
  | dim
  deriving DecidableEq, Repr

/-- What torch does for a method on a tensor of shape `s`: the shape of the result, and for each of its positions the positions whose
elements are added.  `dim` returns an integer, of which `hook_method` takes the attribute `shape` (`mpc_tensor.py:1046-1049`). -/
def Method.plan (m : Method) (s : List Nat) : Py (List Nat × (List Nat → List (List Nat))) :=
  match m with
  | .t => match s with
    | [] => .ok ([], fun o => [o])
    | [n] => .ok ([n], fun o => [o])
    | [n, m] => .ok ([m, n], fun o => [o.reverse])
    | _ => .error .runtimeError
  | .T => .ok (s.reverse, fun o => [o.reverse])
  | .transpose i j => do
    let i ← normDim s.length i
    let j ← normDim s.length j
    return (exchange i j s, fun o => [exchange i j o])
  | .unsqueeze d => do
    let d ← normDim (s.length + 1) d
    return (s.insertIdx d 1, fun o => [o.eraseIdx d])
  | .squeeze => .ok (s.filter (· ≠ 1), fun o => [spread s o])
  | .reshape l => do
    let r ← resolve (Grad.numel s) l
    return (r, fun o => [Grad.unflat s (Grad.flat r o)])
  | .view l => do
    let r ← resolve (Grad.numel s) l
    return (r, fun o => [Grad.unflat s (Grad.flat r o)])
  | .flatten => .ok ([Grad.numel s], fun o => [Grad.unflat s (Grad.flat [Grad.numel s] o)])
  | .sum => .ok ([], fun _ => indices s)
  | .sumDim d keep => do
    let d ← normDim s.length d
    if s = [] then return ([], fun o => [o])
    else if keep then return (s.set d 1, fun o => (List.range (s.getD d 0)).map fun i => o.set d i)
    else return (s.eraseIdx d, fun o => (List.range (s.getD d 0)).map fun i => o.insertIdx d i)
  | .narrow d start len =>
    if s = [] then .error .runtimeError
    else do
      let d ← normDim s.length d
      if start + len ≤ s.getD d 0 then return (s.set d len, fun o => [o.set d (o.getD d 0 + start)]) else .error .runtimeError
  | .repeat k =>
    if k.length < s.length then .error .runtimeError
    else
      let s' := List.replicate (k.length - s.length) 1 ++ s
      .ok (List.zipWith (· * ·) k s', fun o => [List.zipWith (fun i d => i % d) (o.drop (k.length - s.length)) s])
  | .clone => .ok (s, fun o => [o])
  | .dim => .error .attributeError

/-- the method on a torch tensor -/
def Method.run [Add T] [Zero T] (m : Method) (x : Tensor T) : Py (Tensor T) := do
  let (s, src) ← m.plan x.shape
  return ⟨s, fun o => ((src o).map x.at_).sum⟩

/-- `hook_method` and `hook_property`, `mpc_tensor.py:983-1066`: the method on every share, and on an empty tensor of the reported shape;
`torch.empty(None)` raises `TypeError` -/
def hook [Add T] [Zero T] (m : Method) (x : Secret T) : Py (Secret T) := do
  let shares ← x.shares.mapM m.run
  let s ← x.shape.tuple
  let r ← m.run (⟨s, fun _ => 0⟩ : Tensor Int)
  return ⟨shares, .size r.shape⟩

/-- `__len__`, `mpc_tensor.py:864-870` -/
def len (x : Secret T) : Py Nat :=
  match x.shape with
  | .unknown => .error .typeError
  | .list s => pyGet s 0
  | .size s => pyGet s 0

/-! ### Programs -/

/-- a step of a program, one call on an `MPCTensor` (`mpc_tensor.py:827-862` and `mpc_tensor.py:983-1066`): its operands are results of
earlier steps -/
inductive Step (T : Type) where
  | both (op : BinOp) (i j : Nat)
  | «public» (op : BinOp) (i : Nat) (y : Operand T)
  | method (m : Method) (i : Nat)

variable [Add T] [Sub T] [Mul T] [Zero T]

/-- the step on secrets, `mpc_tensor.py:827-862` and `mpc_tensor.py:983-1066` -/
def Step.secret (d : Draws T) (env : List (Secret T)) : Step T → Py (Secret T)
  | .both op i j => do
    let x ← pyGet env i
    let y ← pyGet env j
    if op = .add ∨ op = .sub then opPrivate op x y else opProduct op x y d
  | .public op i y => do opPublic op (← pyGet env i) y
  | .method m i => do hook m (← pyGet env i)

/-- the program of the user on secrets (calls of `mpc_tensor.py:827-862` and `mpc_tensor.py:983-1066` in turn); each step has its own
draws -/
def secret : List (Step T × Draws T) → List (Secret T) → Py (List (Secret T))
  | [], env => .ok env
  | (st, d) :: prog, env => do
    let r ← st.secret d env
    secret prog (env ++ [r])

end SyMPC.Shape
