import Verif.Model.Shape
import Verif.Model.WrapsT

/-!
# Programs with shapes and fixed point numbers

The programs of `Model/Shape.lean` with public operands as the user gives them, which are encoded, and with the division of every
product by the scale.  Sessions and tags of shares are left out, as there, but for the division of three or more parties.
-/

namespace SyMPC.Shape

open Tensor
open FixedPointEncoder (Val)

/-- the operand with every number changed (for the encoding, `share_tensor.py:163-172`) -/
def Operand.map {A B : Type} (f : A → B) : Operand A → Operand B
  | .number a => .number (f a)
  | .tensor t => .tensor (Grad.map f t)

/-- the step with every public number changed (for the encoding, `share_tensor.py:163-172`) -/
def Step.map {A B : Type} (f : A → B) : Step A → Step B
  | .both op i j => .both op i j
  | .public op i y => .public op i (y.map f)
  | .method m i => .method m i

/-- `TRUNCATED_OPS`, `mpc_tensor.py:43` -/
def BinOp.truncated : BinOp → Bool
  | .mul => true
  | .matmul => true
  | .add => false
  | .sub => false

/-- is the result of the step divided by the scale? `mpc_tensor.py:799-803` and `spdz.py:171-176` -/
def Step.truncated {A : Type} : Step A → Bool
  | .both op _ _ => op.truncated
  | .public op _ _ => op.truncated
  | .method _ _ => false

/-- The division by the scale in a session of two parties.  Products of two secrets: `share.tensor //= scale` in `mul_parties`,
`spdz.py:171-176`.  Products with public operands: `truncate`, `mpc_tensor.py:783-808`, divides the result by the scale, `public_divide`,
`spdz.py:191-196`, every share, `ShareTensor.div`, `share_tensor.py:319-337`. -/
def truncate (scale : Nat) (x : Secret I64) : Secret I64 :=
  ⟨x.shares.map (Grad.map fun a => floordiv a (BitVec.ofInt 64 scale)), x.shape⟩

/-- how products are divided by the scale (`mpc_tensor.py:783-825`); `W` is what is drawn for it -/
abbrev Cut (W : Type) := W → Secret I64 → Py (Secret I64)

/-- two parties, `spdz.py:175-176` and `spdz.py:194-196` -/
def cutTwo (c : Config) : Cut Unit := fun _ x => .ok (truncate c.encoder.scale x)

/-- Three or more parties: `truncate`, `mpc_tensor.py:799-808`, calls `public_divide`, `spdz.py:181-228` (`Model/WrapsT.lean`; `fl` rounds
to float32) for products of secrets and for products with public operands.  The shares carry the tags of the parties' sessions
(`share_tensor.py:101-133`), and the result the shape of the operand.  All tensors of a division have one shape, so that positions suffice. -/
def cutMany (fl : ℚ → ℚ) (env : Env) (s : Session) : Cut (WrapRandT (List Nat)) := fun rnd x => do
  let shares : List (ShareTensor (List Nat → I64)) := (x.shares.zip s.rankToUuid).map fun p => ⟨p.1.at_, some p.2, s.config, s.ringSize⟩
  let r ← publicDivideT fl env rnd ⟨s, shares⟩ s.config.encoder.scale
  return ⟨(r.shares.zip x.shares).map fun p => ⟨p.2.shape, p.1.tensor⟩, x.shape⟩

/-- `__apply_op`, `mpc_tensor.py:827-862`, and the forwarded methods: operands are encoded by the parties (`share_tensor.py:163-172`),
products divided by the scale.  The second component is the secret before the division: nothing depends on it. -/
def Step.fixed {W : Type} (c : Config) (cut : Cut W) (d : Draws I64 × W) (env : List (Secret I64)) (st : Step Val) :
    Py (Secret I64 × List (W × Secret I64)) := do
  let r ← (st.map c.encoder.encode).secret d.1 env
  if st.truncated then return (← cut d.2 r, [(d.2, r)]) else return (r, [])

/-- a program of the user (calls of `mpc_tensor.py:827-862` and `mpc_tensor.py:983-1066` in turn); each step has its own draws -/
def fixed {W : Type} (c : Config) (cut : Cut W) : List (Step Val × Draws I64 × W) → List (Secret I64) →
    Py (List (Secret I64) × List (W × Secret I64))
  | [], env => .ok (env, [])
  | (st, d) :: prog, env => do
    let r ← st.fixed c cut d env
    let rest ← fixed c cut prog (env ++ [r.1])
    return (rest.1, r.2 ++ rest.2)

/-- `MPCTensor(secret=x)`, `mpc_tensor.py:166-193`, of all inputs: the coordinator encodes them, `mpc_tensor.py:321-323` -/
def fixedInputs (c : Config) (n : Nat) (inputs : List (Tensor Val × (Nat → List Nat → I64))) : Py (List (Secret I64)) :=
  inputs.mapM fun p => ofSecret (.tensor (Grad.map c.encoder.encode p.1)) n p.2

end SyMPC.Shape
