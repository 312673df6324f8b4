import Verif.Model.Wraps

/-!
# Comparisons derived from `le` and `eq`, and subtraction from a public value

`src/sympc/tensor/mpc_tensor.py`, one element of a tensor.
-/

namespace SyMPC

open FixedPointEncoder (Val)

/-- A public value whose encoding is computed in float32 like the code does: `(value * scale).long()`,
`fp_encoder.py:59-60`, with the product rounded. -/
structure Rounded where
  val : Val

instance : PubEnc Rounded I64 := ⟨fun c v =>
  match v.val with
  | .float q => BitVec.ofInt 64 (FixedPointEncoder.truncRat (f32 (q * f32 c.encoder.scale)))
  | v => c.encoder.encode v⟩

/-- `fp_encoder.decode(1)`, `mpc_tensor.py:1106-1110, 1124-1128`: a float32 tensor, or the integer tensor itself if the
precision is 0. -/
def quantum (c : Config) : Rounded :=
  if c.encoderPrecision = 0 then ⟨.long 1⟩ else ⟨.float (c.encoder.decodeCoreFl f32 1)⟩

/-- What a protocol provides for comparisons (`protocol.le`, `protocol.eq`). -/
structure CmpProtocol where
  le : MPCTensor I64 → MPCTensor I64 → Py (MPCTensor I64)
  eq : MPCTensor I64 → MPCTensor I64 → Py (MPCTensor I64)

namespace MPCTensor

/-- `ge`, `mpc_tensor.py:1082-1093`. -/
def ge (P : CmpProtocol) (x y : MPCTensor I64) : Py (MPCTensor I64) := P.le y x

/-- `lt`, `mpc_tensor.py:1095-1111`. -/
def lt (P : CmpProtocol) (env : Env) (x y : MPCTensor I64) : Py (MPCTensor I64) := do
  let x' ← applyPublicLin env .add x (quantum x.session.config)
  P.le x' y

/-- `gt`, `mpc_tensor.py:1113-1130`. -/
def gt (P : CmpProtocol) (env : Env) (x y : MPCTensor I64) : Py (MPCTensor I64) := do
  let y' ← applyPublicLin env .add y (quantum x.session.config)
  P.le y' x

/-- `rsub`, `mpc_tensor.py:441-450`, for additive shares: `(x - y) * -1`, where the product with the public integer is
truncated (`mpc_tensor.py:800-813`) by dividing by the scale. -/
def rsubPublic (fl : ℚ → ℚ) (env : Env) (rnd : WrapRand) (x : MPCTensor I64) (y : Val) : Py (MPCTensor I64) := do
  let scale : Nat := x.session.config.encoderBase ^ x.session.config.encoderPrecision
  let a ← applyPublicLin env .sub x y
  let b ← applyPublicMul env (· * ·) (floordiv · (BitVec.ofNat 64 scale)) a (Val.int (-1))
  let r ← publicDivide fl env rnd b scale
  return r.1

/-- `ne`, `mpc_tensor.py:1145-1155`. -/
def ne (P : CmpProtocol) (fl : ℚ → ℚ) (env : Env) (rnd : WrapRand) (x y : MPCTensor I64) : Py (MPCTensor I64) := do
  let e ← P.eq x y
  rsubPublic fl env rnd e (.int 1)

end MPCTensor

end SyMPC
