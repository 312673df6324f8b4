import Verif.Model.Rst

/-!
# What a party does with its replicated shares alone

`src/sympc/tensor/replicatedshare_tensor.py`, `src/sympc/tensor/static.py`
-/

namespace SyMPC

/-- The operand of `truediv`: a Python integer, a LongTensor of the shape of the shares, or anything else. -/
inductive Divisor (ι : Type) where
  | int (z : Int)
  | long (t : ι → I64)
  | other

namespace RST

variable {ι E E' : Type}

/-- `res.shares = [f(share) for share in self.shares]`, as at `replicatedshare_tensor.py:552-556, 580-584` -/
def mapShares (f : E → E') (x : RST E) : RST E' := new (x.shares.map f) x.sessionUuid x.config x.ringSize

/-- `truediv`, `replicatedshare_tensor.py:535-556`, in the ring `2**64`.  torch refuses a zero divisor and an
integer that does not fit into 64 bits with `RuntimeError`.  Simplification: the shares have elements. -/
def truediv [Fintype ι] (x : RST (ι → I64)) : Divisor ι → Py (RST (ι → I64))
  | .other => .error .valueError
  | .int z => if z = 0 ∨ z < -2 ^ 63 ∨ 2 ^ 63 ≤ z then .error .runtimeError else .ok (x.mapShares fun s i => floordiv (s i) (BitVec.ofInt 64 z))
  | .long t => if ∃ i, t i = 0 then .error .runtimeError else .ok (x.mapShares fun s i => floordiv (s i) (t i))

/-- `rshift`, `replicatedshare_tensor.py:558-584`; `none` is an operand that is not an integer -/
def rshift {w : Nat} (x : RST (ι → BitVec w)) : Option Int → Py (RST (ι → BitVec w))
  | none => .error .valueError
  | some y =>
    if y < 0 ∨ y > (getNrBits x.ringSize : Int) - 1 then .error .valueError
    else .ok (x.mapShares fun s i => (s i).sshiftRight y.toNat)

/-- `matmul` with a public operand, `replicatedshare_tensor.py:523-533`: `op` multiplies a share by the encoded operand.  The checks of
509 pass for a share of a known session. -/
def publicMatmul {U : Type} (op : E → U → E') (x : RST E) (y : U) : RST E' := x.mapShares fun s => op s y

end RST

/-- one of these at every party -/
def RMPC.each {E E' : Type} (f : RST E → Py (RST E')) (x : RMPC E) : Py (RMPC E') := do
  let shares ← x.shares.mapM f
  RMPC.ofShares x.session shares

/-- The loop of `cat_replicatedShare_tensor`, `static.py:146-149`.  A tensor is the list of its elements, row by row: `torch.cat` along
dimension 0 appends these lists. -/
def catLoop : List (List I64) → List (RST (List I64)) → Py (List (List I64))
  | acc, [] => .ok acc
  | acc, sh :: rest => do
    let acc' ← (List.range acc.length).mapM fun i => do
      let a ← pyGet acc i
      let b ← pyGet sh.shares i
      return a ++ b
    catLoop acc' rest

/-- `cat_replicatedShare_tensor`, `static.py:127-152` -/
def catReplicatedShare (env : Env) (u : Nat) (shares : List (RST (List I64))) : Py (RST (List I64)) :=
  match env u with
  | none => .error .attributeError
  | some p => do
    let s0 ← pyGet shares 0
    let res ← catLoop (List.replicate s0.shares.length []) shares
    return RST.new res (some u) p.config (2 ^ 64)

/-- `cat`, `static.py:76-107`, along dimension 0 with replicated shares: only Falcon has a helper (97-100), with another such protocol the
shares are never assigned.  Simplification: the tensors have one share per party (`zip` at 89 would stop at the shortest list). -/
def catReplicated (env : Env) (ts : List (RMPC (List I64))) : Py (RMPC (List I64)) := do
  let t0 ← pyGet ts 0
  if t0.session.protocol.name ≠ "Falcon" then throw PyErr.unboundLocal
  let shares ← (List.range t0.session.rankToUuid.length).mapM fun r => do
    let u ← pyGet t0.session.rankToUuid r
    let local_ ← ts.mapM fun t => pyGet t.shares r
    catReplicatedShare env u local_
  RMPC.ofShares t0.session shares

/-- ring operations on lists of elements of the ring `2**64` -/
def listOps : RingOps (List I64) where
  add := List.zipWith (· + ·)
  sub := List.zipWith (· - ·)
  mul := List.zipWith (· * ·)
  sum := reduce1 (List.zipWith (· + ·))

end SyMPC
