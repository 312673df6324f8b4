import Verif.Model.Layer
import Verif.Model.Wraps

/-!
# Products with a public operand on the left

`rmatmul` of `src/sympc/tensor/mpc_tensor.py` and `src/sympc/tensor/share_tensor.py`
-/

namespace SyMPC

/-- `ShareTensor.rmatmul`, `share_tensor.py:307-317`: the public operand becomes a share without a session, its `matmul` (286-305) is
called with the secret's share; `trunc` as in `ShareTensor.prod` -/
def ShareTensor.rprod {P T U V : Type} [PubEnc P U] (env : Env) (op : U → T → V) (trunc : V → V) (x : ShareTensor T) (y : P) :
    Py (ShareTensor V) := do
  let y ← sanityChecks env x (.inl y : P ⊕ ShareTensor U)
  prod (P := Empty) env op trunc y (.inr x)

namespace MPCTensor

variable {P T U V : Type} [PubEnc P U]

/-- `op(y, share)` for every share, `mpc_tensor.py:561-562, 569` -/
def leftProduct (env : Env) (op : U → T → V) (trunc : V → V) (x : MPCTensor T) (y : P) : Py (MPCTensor V) := do
  let shares ← x.shares.mapM fun sh => ShareTensor.rprod env op trunc sh y
  ofShares x.session shares

/-- `MPCTensor.rmatmul`, `mpc_tensor.py:552-577`, of additive shares: the product of the shares, divided by the scale of the session
(`truediv`, 591-619).  `divide` is the division of more than two parties (`publicDivide`); two parties divide their shares
(`spdz.py:194-196`) by `div`. -/
def rmatmul (env : Env) (op : U → T → V) (trunc : V → V) (div : V → Nat → V) (divide : MPCTensor V → Nat → Py (MPCTensor V))
    (x : MPCTensor T) (y : P) : Py (MPCTensor V) := do
  let z ← leftProduct env op trunc x y
  let scale := x.session.config.encoderBase ^ x.session.config.encoderPrecision
  if z.session.nrParties = 2 then ofShares z.session (z.shares.map (ShareTensor.div fun v => div v scale))
  else divide z scale

end MPCTensor

end SyMPC
