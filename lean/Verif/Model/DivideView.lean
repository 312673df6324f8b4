import Verif.Model.WrapsT

/-!
# What is seen of a division with three or more parties

The division of `Model/WrapsT.lean` together with what leaves the orchestrator and the provider on the way: `public_divide`
(`src/sympc/protocol/spdz/spdz.py:181-228`) gives every party its part of `r` and of the wraps of `r` (lines 198-221), every share of
`z = r + x` (lines 212-223, `z_shares_local` is among the arguments of every party), and gives the first party the correction that
is made of the opened wraps of `x` (lines 224-226; a public operand only goes to the first party).
-/

namespace SyMPC

variable {ι : Type}

/-- What is sent in one division. -/
structure DivideSeen (ι : Type) where
  /-- the parts of `r`, one per party, `r_sh` -/
  r : List (ι → I64)
  /-- the parts of the wraps of `r`, one per party, `theta_r_sh` -/
  theta : List (ι → I64)
  /-- the shares of `r + x`, all of them for every party, `z_shares_local` -/
  z : List (ι → I64)
  /-- the public operand of the subtraction, for the first party -/
  correction : ι → FixedPointEncoder.Val

/-- `public_divide`, `spdz.py:181-228`, for three or more parties, with what is sent.  Simplification: with two parties (lines 194-196)
nothing is sent, this branch is left out. -/
def publicDivideSeen (fl : ℚ → ℚ) (env : Env) (rnd : WrapRandT ι) (x : MPCTensor (ι → I64)) (d : Int) :
    Py (MPCTensor (ι → I64) × DivideSeen ι) := do
  let s := x.session
  let primitives ← countWrapsRandT env s.nrParties rnd
  let rs ← ShareTensor.distributeShares s (primitives.map (·.1))
  let r ← MPCTensor.ofShares s rs
  let z ← MPCTensor.applyPrivateLin (P := Empty) env .add r x
  let args := r.shares.zip ((primitives.map (·.2)).zip x.shares)
  let out ← args.mapM fun (a, t, b) => divWrapsT env a t b (z.shares.map (·.tensor)) d
  let theta : ι → I64 ← ShareTensor.reconstruct (out.map (·.1))
  let x' : MPCTensor (ι → I64) := { x with shares := out.map (·.2) }
  let correction := fun i => wrapCorrection fl s.config s.ringSize (theta i) d
  let res ← MPCTensor.applyPublicLin (P := ι → FixedPointEncoder.Val) env .sub x' correction
  return (res, ⟨r.shares.map (·.tensor), primitives.map (·.2.tensor), z.shares.map (·.tensor), correction⟩)

end SyMPC
