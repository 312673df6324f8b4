import Verif.Model.Share

/-!
# Which protocol a binary operation on two secret tensors runs

`MPCTensor.__apply_private_op` and `__apply_public_op`, `src/sympc/tensor/mpc_tensor.py:654-755`
-/

namespace SyMPC

/-- Names of binary operations (`op_str`). -/
inductive BinOp where
  | add | sub | mul | matmul | conv2d | convTranspose2d | xor
  deriving DecidableEq, Repr

/-- `TRUNCATED_OPS`, `mpc_tensor.py:35`. -/
def BinOp.truncated : BinOp → Bool
  | .mul | .matmul | .conv2d | .convTranspose2d => true
  | _ => false

/-- What is run for two secrets. -/
inductive Route where
  | spdz | falcon
  /-- xor as addition in the bit ring -/
  | xorAdd
  /-- xor as `x + y - 2xy` -/
  | xorPoly
  /-- `add`/`sub` share by share -/
  | zip
  deriving DecidableEq, Repr

/-- `__apply_private_op`, `mpc_tensor.py:672-717`, decision part.  `shareRing` is the answer of
`share_ptrs[0].get_ring_size()`, a method only replicated shares have. -/
def routePrivate (sx sy : Session) (shareRing : Nat) (op : BinOp) : Py Route := do
  MPCTensor.checkPrivate sx sy
  if op.truncated then
    match sx.protocol.shareClass with
    | .additive => return .spdz
    | .replicated => if op = .mul ∨ op = .matmul then return .falcon else throw PyErr.notImplemented
  else if op = .xor then
    match sx.protocol.shareClass with
    | .additive => throw PyErr.attributeError
    | .replicated => if shareRing = 2 then return .xorAdd else return .xorPoly
  else return .zip

/-- Which shares change when the second operand is public. -/
inductive PubRoute where
  | allShares | firstShare
  deriving DecidableEq, Repr

/-- `__apply_public_op`, `mpc_tensor.py:737-755`, decision part.  For the convolutions `getattr(operator, op_str)`
already fails (`AttributeError`). -/
def routePublic (s : Session) (op : BinOp) : Py PubRoute :=
  match op with
  | .mul | .matmul => .ok .allShares
  | .add | .sub | .xor =>
    match s.protocol.shareClass with
    | .additive => .ok .firstShare
    | .replicated => .ok .allShares
  | .conv2d | .convTranspose2d => .error .attributeError

end SyMPC
