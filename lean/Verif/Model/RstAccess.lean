import Verif.Model.Rst

/-!
# Making, reading and changing replicated shares

`src/sympc/tensor/replicatedshare_tensor.py`.  Simplification: a share is the list of the elements of its tensor, each stored in 64 bits
whatever the torch type is; the shape is left out where it is not asked for.
-/

namespace SyMPC

/-- `.to(tensor_type)` on an element of an int64 tensor: for `bool` "is it not zero", else the low bits, read with or without sign -/
def DType.store : DType → I64 → I64
  | .bool, t => if t = 0 then 0 else 1
  | .uint8, t => (t.setWidth 8).setWidth 64
  | .int8, t => (t.setWidth 8).signExtend 64
  | .int16, t => (t.setWidth 16).signExtend 64
  | .int32, t => (t.setWidth 32).signExtend 64
  | .int64, t => t

namespace RST

/-- `ReplicatedSharedTensor(shares=..., ...)`, `replicatedshare_tensor.py:69-117`: every given share is encoded and stored in the type of
the ring. -/
def init (shares : Option (List (List FixedPointEncoder.Val))) (config : Config) (sessionUuid : Option Nat) (ringSize : Nat) :
    Py (RST (List I64)) := do
  let kept := initConfig config ringSize
  let tensorType ← getTypeFromRing ringSize
  let stored := match shares with
    | none => []
    | some shares => shares.map fun share => share.map fun v => tensorType.store (kept.encoder.encode v)
  return { shares := stored, sessionUuid := sessionUuid, config := kept, ringSize := ringSize }

/-- `decode`, `replicatedshare_tensor.py:119-139` -/
def decode (x : RST (List I64)) : Py (List (List ℚ)) :=
  x.shares.mapM fun share => share.mapM fun t => x.config.encoder.decode (.long t)

variable {E E' : Type}

/-- the position of an index of a Python list: negative ones count from the end -/
def position (l : List E) (key : Int) : Option Nat :=
  if 0 ≤ key then if key < l.length then some key.toNat else none
  else if -(l.length : Int) ≤ key then some (key + l.length).toNat else none

/-- `__getitem__`, `replicatedshare_tensor.py:694-703` -/
def getItem (x : RST E) (key : Int) : Py E :=
  match position x.shares key with
  | some i => pyGet x.shares i
  | none => .error .indexError

/-- `__setitem__`, `replicatedshare_tensor.py:705-713` -/
def setItem (x : RST E) (key : Int) (newvalue : E) : Py (RST E) :=
  match position x.shares key with
  | some i => .ok { x with shares := x.shares.set i newvalue }
  | none => .error .indexError

/-- the property `T`, `replicatedshare_tensor.py:980-993`; `f` transposes a tensor -/
def propertyT (f : E → E') (x : RST E) : RST E' := new (x.shares.map f) x.sessionUuid x.config x.ringSize

/-- the property `shape`, `replicatedshare_tensor.py:995-997`: that of the first share -/
def propertyShape (f : E → List Nat) (x : RST E) : Py (List Nat) := do
  let share ← pyGet x.shares 0
  return f share

end RST

end SyMPC
