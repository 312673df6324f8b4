import Verif.Model.Wraps

/-!
# Shares as remote objects

The other models treat shares as values.  In the code an `MPCTensor` holds pointers to objects at the parties
(`share_ptrs`, `src/sympc/tensor/mpc_tensor.py:104-111`); two tensors may hold pointers to the same object, and
`div_wraps` (`src/sympc/protocol/spdz/spdz.py:274`) changes an object in place.  Here shares live in cells of a heap.
Simplification: one heap for all parties (a pointer is a cell number), cells are never freed.
-/

namespace SyMPC

/-- The objects at the parties. -/
structure Heap where
  cells : Nat → ShareTensor I64
  next : Nat

/-- An `MPCTensor` with its `share_ptrs`. -/
structure HTensor where
  session : Session
  ptrs : List Nat

/-- A new remote object. -/
def Heap.alloc (h : Heap) (s : ShareTensor I64) : Nat × Heap :=
  (h.next, ⟨fun a => if a = h.next then s else h.cells a, h.next + 1⟩)

/-- New remote objects, one per share. -/
def Heap.allocAll (h : Heap) : List (ShareTensor I64) → List Nat × Heap
  | [] => ([], h)
  | s :: ss =>
    let (a, h1) := h.alloc s
    let (as, h2) := h1.allocAll ss
    (a :: as, h2)

/-- Assignment to existing remote objects. -/
def Heap.write (h : Heap) : List (Nat × ShareTensor I64) → Heap
  | [] => h
  | (a, s) :: rest => Heap.write { h with cells := fun b => if b = a then s else h.cells b } rest

/-- The tensor as a value. -/
def HTensor.deref (h : Heap) (t : HTensor) : MPCTensor I64 := ⟨t.session, t.ptrs.map h.cells⟩

/-- `MPCTensor(secret=..., session=...)`: every share is a new object, `mpc_tensor.py:161-199`. -/
def HTensor.ofSecret (env : Env) (s : Session) (h : Heap) (v : FixedPointEncoder.Val) (draws : Nat → I64) :
    Py (HTensor × Heap) := do
  let x ← MPCTensor.ofSecret env s v draws
  let (ps, h) := h.allocAll x.shares
  return (⟨s, ps⟩, h)

/-- `__apply_private_op` for "add" and "sub": every share of the result is a new object, `mpc_tensor.py:708-717`. -/
def HTensor.applyPrivateLin (env : Env) (op : MPCTensor.LinOp) (h : Heap) (t u : HTensor) : Py (HTensor × Heap) := do
  let z ← MPCTensor.applyPrivateLin (P := Empty) env op (t.deref h) (u.deref h)
  let (ps, h) := h.allocAll z.shares
  return (⟨t.session, ps⟩, h)

/-- `__apply_public_op` for "add" and "sub", `mpc_tensor.py:742-747, 754`: `shares = list(self.share_ptrs)` copies the
pointers, and only `shares[0]` becomes a new object. -/
def HTensor.applyPublicLin (env : Env) (op : MPCTensor.LinOp) (h : Heap) (t : HTensor) (y : FixedPointEncoder.Val) :
    Py (HTensor × Heap) :=
  match t.ptrs with
  | [] => .error .indexError
  | p0 :: rest => do
    let s0 ← MPCTensor.shareOp env op (h.cells p0) (.inl y)
    let (a, h) := h.alloc s0
    let _ ← MPCTensor.ofShares t.session ((a :: rest).map h.cells)
    return (⟨t.session, a :: rest⟩, h)

/-- `public_divide`, `spdz.py:181-228`.  With two parties every share of the result is a new object (line 195).  Otherwise
`div_wraps` assigns to the objects of the operand (line 274), and the result is `x - correction` (line 226), whose first
share is new and whose other shares are the operand's objects. -/
def HTensor.publicDivide (fl : ℚ → ℚ) (env : Env) (rnd : WrapRand) (h : Heap) (t : HTensor) (d : Int) :
    Py (HTensor × Heap) := do
  let (res, x') ← SyMPC.publicDivide fl env rnd (t.deref h) d
  if t.session.nrParties = 2 then
    let (ps, h) := h.allocAll res.shares
    return (⟨t.session, ps⟩, h)
  else
    let h := h.write (t.ptrs.zip x'.shares)
    match res.shares with
    | [] => .error .indexError
    | s0 :: _ =>
      let (a, h) := h.alloc s0
      return (⟨t.session, a :: t.ptrs.tail⟩, h)

/-- One statement of a program that computes with secrets; tensors are numbered in the order of their creation. -/
inductive HCmd where
  | secret (v : FixedPointEncoder.Val) (draws : Nat → I64)
  | addSecret (op : MPCTensor.LinOp) (i j : Nat)
  | addPublic (op : MPCTensor.LinOp) (i : Nat) (y : FixedPointEncoder.Val)
  | divide (i : Nat) (rnd : WrapRand) (d : Int)

/-- One statement: the new tensor is appended to the list of tensors. -/
def HCmd.step (fl : ℚ → ℚ) (env : Env) (s : Session) (c : HCmd) (st : List HTensor × Heap) : Py (List HTensor × Heap) := do
  let (ts, h) := st
  let (t, h) ← (match c with
    | .secret v draws => HTensor.ofSecret env s h v draws
    | .addSecret op i j => do
      let a ← pyGet ts i
      let b ← pyGet ts j
      HTensor.applyPrivateLin env op h a b
    | .addPublic op i y => do
      let a ← pyGet ts i
      HTensor.applyPublicLin env op h a y
    | .divide i rnd d => do
      let a ← pyGet ts i
      HTensor.publicDivide fl env rnd h a d : Py (HTensor × Heap))
  return (ts ++ [t], h)

/-- A program. -/
def runHeap (fl : ℚ → ℚ) (env : Env) (s : Session) : List HCmd → List HTensor × Heap → Py (List HTensor × Heap)
  | [], st => .ok st
  | c :: cs, st => do
    let st ← c.step fl env s st
    runHeap fl env s cs st

end SyMPC
