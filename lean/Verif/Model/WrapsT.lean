import Verif.Model.Wraps

/-!
# Division of a secret tensor by a public integer

The functions of `Model/Wraps.lean` on whole tensors: `src/sympc/protocol/spdz/spdz.py` (`public_divide`, `div_wraps`),
`src/sympc/utils/mpc_utils.py` (`count_wraps`), `src/sympc/protocol/beaver/beaver.py` (`count_wraps_rand`).  Simplification: the
elements are indexed by a type instead of a shape.
-/

namespace SyMPC

variable {ι : Type}

/-- The loop of `count_wraps`, `mpc_utils.py:37-47`; comparisons and `&` of tensors act on each element. -/
def countWrapsFromT (prev res : ι → I64) : List (ι → I64) → ι → I64
  | [] => res
  | cur :: rest =>
    let next := cur + prev
    let res := res - fun i => if (prev i).toInt < 0 ∧ (cur i).toInt < 0 ∧ 0 < (next i).toInt then 1 else 0
    let res := res + fun i => if 0 < (prev i).toInt ∧ 0 < (cur i).toInt ∧ (next i).toInt < 0 then 1 else 0
    countWrapsFromT next res rest

/-- `count_wraps`, `mpc_utils.py:23-49`. -/
def countWrapsT : List (ι → I64) → Py (ι → I64)
  | [] => .error .indexError
  | x :: xs => .ok (countWrapsFromT x 0 xs)

/-- The randomness of one run of `count_wraps_rand`. -/
structure WrapRandT (ι : Type) where
  r : ι → I64
  dr : Nat → ι → I64
  dt : Nat → ι → I64

/-- `count_wraps_rand`, `beaver.py:504-548`. -/
def countWrapsRandT (env : Env) (nrParties : Nat) (rnd : WrapRandT ι) : Py (List (ShareTensor (ι → I64) × ShareTensor (ι → I64))) := do
  let config : Config := { encoderPrecision := 0 }
  let rs ← generateShares env ⟨rnd.r, none, config, 2 ^ 64⟩ nrParties rnd.dr
  let wraps ← countWrapsT (rs.map (·.tensor))
  let ts ← generateShares env ⟨wraps, none, config, 2 ^ 64⟩ nrParties rnd.dt
  return rs.zip ts

/-- `div_wraps`, `spdz.py:234-276`. -/
def divWrapsT (env : Env) (r theta x : ShareTensor (ι → I64)) (zs : List (ι → I64)) (d : Int) :
    Py (ShareTensor (ι → I64) × ShareTensor (ι → I64)) := do
  let u ← (match r.sessionUuid with | some u => .ok u | none => .error .attributeError : Py Nat)
  let p ← (match env u with | some p => .ok p | none => .error .attributeError : Py PartySession)
  let beta ← countWrapsT [x.tensor, r.tensor]
  let theta_x := beta - theta.tensor
  let theta_z ← (if p.rank = 0 then countWrapsT zs else .ok 0 : Py (ι → I64))
  return (⟨theta_x + theta_z, none, { encoderPrecision := 0 }, 2 ^ 64⟩,
    { x with tensor := fun i => floordiv (x.tensor i) (BitVec.ofInt 64 d) })

/-- `public_divide`, `spdz.py:181-228`, for a Python integer `d`; without the operand `x` that the code leaves changed. -/
def publicDivideT (fl : ℚ → ℚ) (env : Env) (rnd : WrapRandT ι) (x : MPCTensor (ι → I64)) (d : Int) : Py (MPCTensor (ι → I64)) :=
  let s := x.session
  if s.nrParties = 2 then
    MPCTensor.ofShares s (x.shares.map (ShareTensor.div fun t i => floordiv (t i) (BitVec.ofInt 64 d)))
  else do
    let primitives ← countWrapsRandT env s.nrParties rnd
    let rs ← ShareTensor.distributeShares s (primitives.map (·.1))
    let r ← MPCTensor.ofShares s rs
    let z ← MPCTensor.applyPrivateLin (P := Empty) env .add r x
    let args := r.shares.zip ((primitives.map (·.2)).zip x.shares)
    let out ← args.mapM fun (a, t, b) => divWrapsT env a t b (z.shares.map (·.tensor)) d
    let theta : ι → I64 ← ShareTensor.reconstruct (out.map (·.1))
    let x' : MPCTensor (ι → I64) := { x with shares := out.map (·.2) }
    MPCTensor.applyPublicLin (P := ι → FixedPointEncoder.Val) env .sub x' fun i => wrapCorrection fl s.config s.ringSize (theta i) d

end SyMPC
