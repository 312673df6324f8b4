import Verif.Model.Py
import Mathlib.Data.ZMod.Basic

/-!
# The rings shares live in, and the operations selected for them

`src/sympc/utils/mpc_utils.py`, `src/sympc/tensor/replicatedshare_tensor.py`
-/

namespace SyMPC

/-- The torch element types of `RING_SIZE_TO_TYPE`, `src/sympc/utils/mpc_utils.py:13-20`. -/
inductive DType where
  | bool | int8 | uint8 | int16 | int32 | int64
  deriving DecidableEq, Repr

/-- `PRIME_NUMBER`, `src/sympc/tensor/replicatedshare_tensor.py:38`. -/
def primeNumber : Nat := 67

/-- `get_type_from_ring`, `src/sympc/utils/mpc_utils.py:52-68` with the table of lines 13-20. -/
def getTypeFromRing (ringSize : Nat) : Py DType :=
  if ringSize = 2 then .ok .bool
  else if ringSize = 2 ^ 8 then .ok .int8
  else if ringSize = 67 then .ok .uint8
  else if ringSize = 2 ^ 16 then .ok .int16
  else if ringSize = 2 ^ 32 then .ok .int32
  else if ringSize = 2 ^ 64 then .ok .int64
  else .error .valueError

/-- `get_nr_bits`, `src/sympc/utils/mpc_utils.py:113-123`: `(ring_size - 1).bit_length()`. -/
def getNrBits (ringSize : Nat) : Nat := (ringSize - 1).size

/-- `addmodprime`, `replicatedshare_tensor.py:167-186` on one `uint8` element: the sum wraps modulo 256 before the
remainder is taken. -/
def addmodprime (x y : BitVec 8) : BitVec 8 := (x + y) % 67#8

/-- `submodprime`, `replicatedshare_tensor.py:188-213`: both operands are reinterpreted as `int8`, the difference
wraps in `int8`, the remainder is Python's. -/
def submodprime (x y : BitVec 8) : BitVec 8 := pymod (x - y) 67#8

/-- `mulmodprime`, `replicatedshare_tensor.py:215-240`: zero extension to `int16`, product in `int16`, Python
remainder, back to `uint8`. -/
def mulmodprime (x y : BitVec 8) : BitVec 8 :=
  (pymod (x.zeroExtend 16 * y.zeroExtend 16) 67#16).truncate 8

/-- The ring operations used on the shares of one ring (one tensor element). -/
structure RingOps (E : Type) where
  add : E → E → E
  sub : E → E → E
  mul : E → E → E
  /-- `ReplicatedSharedTensor.shares_sum`, `replicatedshare_tensor.py:726-742` -/
  sum : List E → Py E

/-- `functools.reduce` without initial value: `TypeError` on an empty list, left fold otherwise. -/
def reduce1 {E : Type} (f : E → E → E) : List E → Py E
  | [] => .error .typeError
  | a :: l => .ok (l.foldl f a)

/-- Ring `2`: `BINARY_MAP` maps add and sub to xor, mul to and (`replicatedshare_tensor.py:36, 257-258, 737-738`). -/
def binOps : RingOps Bool :=
  { add := xor, sub := xor, mul := and, sum := reduce1 xor }

/-- Ring `67` (`replicatedshare_tensor.py:259-260, 739-740`). -/
def primeOps : RingOps (BitVec 8) :=
  { add := addmodprime, sub := submodprime, mul := mulmodprime, sum := reduce1 addmodprime }

/-- Rings `2**w` (`replicatedshare_tensor.py:261-262, 741-742`): the wrapping operations of the torch type;
`sum` starts from 0. -/
def powOps (w : Nat) : RingOps (BitVec w) :=
  { add := (· + ·), sub := (· - ·), mul := (· * ·), sum := fun l => .ok (l.foldl (· + ·) 0) }

/-- The same operations on tensors with index type `ι`, element by element.  Python's `sum` of the rings `2**w` starts
from the number 0, which changes nothing; an empty list is left out (`TypeError`). -/
def RingOps.tensor {E : Type} (I : RingOps E) (ι : Type) : RingOps (ι → E) :=
  { add := fun a b i => I.add (a i) (b i), sub := fun a b i => I.sub (a i) (b i), mul := fun a b i => I.mul (a i) (b i)
    sum := reduce1 fun a b i => I.add (a i) (b i) }

/-- Names of operations handed to `get_op`. -/
inductive OpStr where
  | add | sub | mul | matmul
  deriving DecidableEq, Repr

/-- Which operation `get_op` returns (`replicatedshare_tensor.py:242-266`): for ring 2 a missing key of `BINARY_MAP`
is a `KeyError`, for the prime ring a missing method `matmulmodprime` an `AttributeError`, an unknown ring a
`ValueError`. -/
inductive OpKind where
  | binXor | binAnd | addPrime | subPrime | mulPrime | torch (op : OpStr)
  deriving DecidableEq, Repr

/-- `ReplicatedSharedTensor.get_op`, `replicatedshare_tensor.py:242-266`. -/
def getOp (ringSize : Nat) (op : OpStr) : Py OpKind :=
  if ringSize = 2 then
    match op with
    | .add => .ok .binXor
    | .sub => .ok .binXor
    | .mul => .ok .binAnd
    | .matmul => .error .keyError
  else if ringSize = primeNumber then
    match op with
    | .add => .ok .addPrime
    | .sub => .ok .subPrime
    | .mul => .ok .mulPrime
    | .matmul => .error .attributeError
  else
    match getTypeFromRing ringSize with
    | .ok _ => .ok (.torch op)
    | .error _ => .error .valueError

end SyMPC
