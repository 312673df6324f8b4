import Verif.Model.Share
import Verif.Model.Float32

/-!
# Division of a secret by a public integer

`src/sympc/protocol/spdz/spdz.py` (`public_divide`, `div_wraps`), `src/sympc/utils/mpc_utils.py` (`count_wraps`),
`src/sympc/protocol/beaver/beaver.py` (`count_wraps_rand`), one element of a tensor.
-/

namespace SyMPC

/-- The loop of `count_wraps`, `mpc_utils.py:37-47`. -/
def countWrapsFrom (prev res : I64) : List I64 → I64
  | [] => res
  | cur :: rest =>
    let next := cur + prev
    let res := res - (if prev.toInt < 0 ∧ cur.toInt < 0 ∧ 0 < next.toInt then 1 else 0)
    let res := res + (if 0 < prev.toInt ∧ 0 < cur.toInt ∧ next.toInt < 0 then 1 else 0)
    countWrapsFrom next res rest

/-- `count_wraps`, `mpc_utils.py:23-49`. -/
def countWraps : List I64 → Py I64
  | [] => .error .indexError
  | x :: xs => .ok (countWrapsFrom x 0 xs)

/-- The randomness of one run of `count_wraps_rand`. -/
structure WrapRand where
  r : I64
  dr : Nat → I64
  dt : Nat → I64

/-- `count_wraps_rand`, `beaver.py:504-548`: for each party its share of `r` and of the number of wrap-arounds of the
shares of `r`. -/
def countWrapsRand (env : Env) (nrParties : Nat) (rnd : WrapRand) : Py (List (ShareTensor I64 × ShareTensor I64)) := do
  let config : Config := { encoderPrecision := 0 }
  let rs ← generateShares env ⟨rnd.r, none, config, 2 ^ 64⟩ nrParties rnd.dr
  let wraps ← countWraps (rs.map (·.tensor))
  let ts ← generateShares env ⟨wraps, none, config, 2 ^ 64⟩ nrParties rnd.dt
  return rs.zip ts

/-- `div_wraps`, `spdz.py:234-276`: the share of the number of wrap-arounds, and what the in-place division leaves in
`x_share`. -/
def divWraps (env : Env) (r theta x : ShareTensor I64) (zs : List I64) (d : Int) : Py (ShareTensor I64 × ShareTensor I64) := do
  let u ← (match r.sessionUuid with | some u => .ok u | none => .error .attributeError : Py Nat)
  let p ← (match env u with | some p => .ok p | none => .error .attributeError : Py PartySession)
  let beta ← countWraps [x.tensor, r.tensor]
  let theta_x := beta - theta.tensor
  let theta_z ← (if p.rank = 0 then countWraps zs else .ok 0 : Py I64)
  return (⟨theta_x + theta_z, none, { encoderPrecision := 0 }, 2 ^ 64⟩,
    { x with tensor := floordiv x.tensor (BitVec.ofInt 64 d) })

/-- The public value `theta_x_plaintext * 4 * ((ring_size // 4) // y)`, `spdz.py:222-224`.  `reconstruct` decodes the
integer `theta` with the session's encoder: with precision 0 that is the integer tensor itself, otherwise a float32
tensor, and the products are float32 products. -/
def wrapCorrection (fl : ℚ → ℚ) (c : Config) (ringSize : Nat) (theta : I64) (d : Int) : FixedPointEncoder.Val :=
  let q : Int := ((ringSize : Int) / 4) / d
  if c.encoderPrecision = 0 then .long (theta * 4 * BitVec.ofInt 64 q)
  else .float (fl (fl (fl (c.encoder.decodeCoreFl fl theta) * 4) * fl q))

/-- `public_divide`, `spdz.py:181-228`, for a Python integer `d`.  The second component is the operand `x` afterwards:
its shares are changed in place at the parties when there are not two of them. -/
def publicDivide (fl : ℚ → ℚ) (env : Env) (rnd : WrapRand) (x : MPCTensor I64) (d : Int) :
    Py (MPCTensor I64 × MPCTensor I64) :=
  let s := x.session
  if s.nrParties = 2 then do
    let res ← MPCTensor.ofShares s (x.shares.map (ShareTensor.div (floordiv · (BitVec.ofInt 64 d))))
    return (res, x)
  else do
    let primitives ← countWrapsRand env s.nrParties rnd
    let rs ← ShareTensor.distributeShares s (primitives.map (·.1))
    let r ← MPCTensor.ofShares s rs
    let z ← MPCTensor.applyPrivateLin (P := Empty) env .add r x
    let args := r.shares.zip ((primitives.map (·.2)).zip x.shares)
    let out ← args.mapM fun (a, t, b) => divWraps env a t b (z.shares.map (·.tensor)) d
    let theta ← ShareTensor.reconstruct (out.map (·.1))
    let x' : MPCTensor I64 := { x with shares := out.map (·.2) }
    let res ← MPCTensor.applyPublicLin env .sub x' (wrapCorrection fl s.config s.ringSize theta d)
    return (res, x')

end SyMPC
