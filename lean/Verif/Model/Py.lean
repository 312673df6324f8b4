import Mathlib.Data.BitVec

/-!
# Python exceptions and torch integer arithmetic

The shared vocabulary of the model.  Nothing here is specific to SyMPC.
-/

namespace SyMPC

/-- Python exceptions raised by the modelled code. -/
inductive PyErr where
  | valueError
  | typeError
  | indexError
  | keyError
  | attributeError
  | notImplemented
  | runtimeError
  | emptyStore
  | unboundLocal
  | zeroDivision
  | assertion
  deriving DecidableEq, Repr

/-- Result of a Python call: an exception or a value. -/
abbrev Py (α : Type _) := Except PyErr α

/-- One element of a torch `int64` tensor (ring `2**64`, `src/sympc/utils/mpc_utils.py:13-20`). -/
abbrev I64 := BitVec 64

/-- `tensor // y` on signed integer tensors.  `requirements.txt:3` allows `torch>=1.6,<=1.8.1`; in these versions
integer `//` rounds toward zero.  Division by zero raises `RuntimeError` (`ZeroDivisionError`) in torch; here it is
the totalised `sdiv` and every theorem about a division assumes a non-zero divisor. -/
def floordiv {w : Nat} (x y : BitVec w) : BitVec w := x.sdiv y

/-- `tensor % y` on signed integer tensors: Python's remainder (sign of the divisor). -/
def pymod {w : Nat} (x y : BitVec w) : BitVec w := x.smod y

/-- `(tensor < 0).long()` -/
def isNeg (x : I64) : I64 := if x.toInt < 0 then 1 else 0

/-- `(tensor == 0).long()` -/
def isZero (x : I64) : I64 := if x = 0 then 1 else 0

end SyMPC
