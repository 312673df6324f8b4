import Verif.Model.Program
import Verif.Model.DivideView

/-!
# Whole computations with fixed point numbers and three or more parties

The statements of `Model/Program.lean` on additive shares, where a product is followed by the division by the scale
(`truncate`, `src/sympc/tensor/mpc_tensor.py:783-824`).  With two parties a product of secrets is divided by the parties themselves
(`spdz.py:175-176`): see `Model/MProgram.lean`.
-/

namespace SyMPC.NProgram

open FixedPointEncoder (Val)

variable {ι : Type}

/-- What is drawn for one statement, each part used if the statement needs it: the tensors of `generate_shares`
(`mpc_tensor.py:325-337`), a triple (`beaver.py:80-103`), and a number with its wrap-arounds (`beaver.py:504-548`). -/
structure Draw (m : Nat) (ι : Type) where
  sharing : Fin m → ι → I64
  a : ι → I64
  b : ι → I64
  da : Fin m → ι → I64
  db : Fin m → ι → I64
  dc : Fin m → ι → I64
  r : ι → I64
  dr : Fin m → ι → I64
  dt : Fin m → ι → I64

/-- what is drawn for a division -/
def Draw.wraps {m : Nat} (d : Draw m ι) : WrapRandT ι := ⟨d.r, Program.extend d.dr, Program.extend d.dt⟩

/-- A division: what was drawn for it, the shares divided and what was sent (not in the code). -/
structure Division (ι : Type) where
  wraps : WrapRandT ι
  shares : List (ι → I64)
  seen : DivideSeen ι

/-- the tensors and stores, and the divisions made so far -/
structure State (ι : Type) where
  base : Program.State (ι → I64)
  divisions : List (Division ι)

/-- a session without tensors and primitives -/
def State.empty : State ι := ⟨Program.State.empty, []⟩

/-- `truncate`, `mpc_tensor.py:799-809`, of the newest tensor: `truediv` (`mpc_tensor.py:616-619`) by the scale.  `fl` rounds to
float32.  Simplification: the division of three or more parties only. -/
def truncate (fl : ℚ → ℚ) (env : Env) (s : Session) (rnd : WrapRandT ι) (S : State ι) (B : Program.State (ι → I64)) : Py (State ι) := do
  let z ← (match B.tensors.getLast? with | some z => .ok z | none => .error .indexError : Py (MPCTensor (ι → I64)))
  let (q, seen) ← publicDivideSeen fl env rnd z (s.config.encoderBase ^ s.config.encoderPrecision : Nat)
  return ⟨{ B with tensors := B.tensors.dropLast ++ [q] }, S.divisions ++ [⟨rnd, z.shares.map (·.tensor), seen⟩]⟩

/-- One statement: `MPCTensor(secret=...)` (`mpc_tensor.py:161-199`), or `__apply_op` (`mpc_tensor.py:827-862`), which calls
`truncate` after a product. -/
def step {m : Nat} (fl : ℚ → ℚ) (env : Env) (s : Session) (trunc : Config → (ι → I64) → ι → I64) (d : Draw m ι) (S : State ι) :
    Program.Cmd (ι → Val) (ι → I64) → Py (State ι)
  | .secret v => do
    let B ← Program.share env s v d.sharing S.base
    return { S with base := B }
  | .mul i j => do
    let B ← Program.product env s (· * ·) trunc i j d.a d.b d.da d.db d.dc S.base
    truncate fl env s d.wraps S B
  | .mulPublic i v => do
    let B ← Program.plain env (· * ·) trunc S.base (.mulPublic i v)
    truncate fl env s d.wraps S B
  | c => do
    let B ← Program.plain env (· * ·) trunc S.base c
    return { S with base := B }

/-- A program, with the draws of each statement. -/
def run {m : Nat} (fl : ℚ → ℚ) (env : Env) (s : Session) (trunc : Config → (ι → I64) → ι → I64) (draws : Nat → Draw m ι) :
    List (Program.Cmd (ι → Val) (ι → I64)) → State ι → Py (State ι)
  | [], S => .ok S
  | c :: cs, S => do
    let S ← step fl env s trunc (draws S.base.tensors.length) S c
    run fl env s trunc draws cs S

end SyMPC.NProgram
