import Verif.Model.Machine
import Verif.Model.Program

/-!
# Whole computations with fixed point numbers in a two-party session

Straight-line programs of the operations of `src/sympc/tensor/mpc_tensor.py` on tensors with `n` elements, with the stores and the
recorded events of `Model/Machine.lean`.
-/

namespace SyMPC.Machine

open FixedPointEncoder (Val)
open Program (Cmd)

variable {Key : Type} (M : Machine Key) {n : Nat}

/-- One statement, on the tensors made so far; `draw t r` is the tensor that `generate_shares` draws for the tensor number `t`
(`mpc_tensor.py:325-337`).  Secrets: `mpc_tensor.py:161-199`; sums: `mpc_tensor.py:672-753`; products: `mpc_tensor.py:736-740, 799-813`
and `spdz.py:36-96`; methods on the shares: `mpc_tensor.py:1021-1067`. -/
def statement (draw : Nat → Nat → Fin n → I64) (xs : List (MX n)) : Cmd (Fin n → Val) (Fin n → I64) → MachineM Key (MX n)
  | .secret v => lift (MPCTensor.ofSecret M.env M.session v (draw xs.length))
  | .lin o i j => do
    let x ← lift (pyGet xs i)
    let y ← lift (pyGet xs j)
    lift (MPCTensor.applyPrivateLin (P := Empty) M.env o x y)
  | .linPublic o i v => do
    let x ← lift (pyGet xs i)
    lift (MPCTensor.applyPublicLin M.env o x v)
  | .mulPublic i v => do
    let x ← lift (pyGet xs i)
    M.mulPublic x v
  | .mul i j => do
    let x ← lift (pyGet xs i)
    let y ← lift (pyGet xs j)
    M.mulPrivate x y
  | .method f i => do
    let x ← lift (pyGet xs i)
    lift (MPCTensor.hookMethod f x)

/-- a program -/
def statements (draw : Nat → Nat → Fin n → I64) : List (Cmd (Fin n → Val) (Fin n → I64)) → List (MX n) → MachineM Key (List (MX n))
  | [], xs => pure xs
  | c :: cs, xs => do
    let x ← M.statement draw xs c
    statements draw cs (xs ++ [x])

end SyMPC.Machine
