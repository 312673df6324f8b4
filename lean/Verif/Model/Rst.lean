import Verif.Model.Share

/-!
# `ReplicatedSharedTensor`

`src/sympc/tensor/replicatedshare_tensor.py`.  The element type `E` and the operations `I : RingOps E` are those of
the ring (`get_op`, `shares_sum`, see `Verif/Model/Ring.lean`); a tensor is modelled by one element.
-/

namespace SyMPC

/-- `ReplicatedSharedTensor`, `replicatedshare_tensor.py:56-63`. -/
structure RST (E : Type) where
  shares : List E
  sessionUuid : Option Nat
  config : Config
  ringSize : Nat
  deriving DecidableEq

namespace RST

variable {E P : Type}

/-- The configuration kept by `__init__`, `replicatedshare_tensor.py:92-95`: no scaling in the rings 2 and 67. -/
def initConfig (config : Config) (ringSize : Nat) : Config :=
  if ringSize = 2 ∨ ringSize = primeNumber then { encoderBase := 1, encoderPrecision := 0 } else config

/-- `__init__` followed by `result.shares = shares`, `replicatedshare_tensor.py:69-105`. -/
def new (shares : List E) (sessionUuid : Option Nat) (config : Config) (ringSize : Nat) : RST E :=
  { shares := shares, sessionUuid := sessionUuid, config := initConfig config ringSize, ringSize := ringSize }

/-- Public value in the ring `2**w`: encoded with the share's configuration, then stored in `w` bits,
`replicatedshare_tensor.py:104-105, 291-296`. -/
def encPow (w : Nat) (c : Config) (v : FixedPointEncoder.Val) : BitVec w := (c.encoder.encode v).setWidth w

/-- Public value in the prime ring: `y % PRIME_NUMBER` (Python remainder), then truncated to an integer byte,
`replicatedshare_tensor.py:289`. -/
def encPrime : FixedPointEncoder.Val → BitVec 8
  | .float q => BitVec.ofInt 8 (FixedPointEncoder.truncRat (q - 67 * ((q / 67).floor : ℚ)))
  | .int z => BitVec.ofInt 8 (z % 67)
  | .long t => BitVec.ofInt 8 (t.toInt % 67)

/-- Public value in the bit ring: `.to(torch.bool)` of the integer part. -/
def encBin : FixedPointEncoder.Val → Bool
  | .float q => FixedPointEncoder.truncRat q ≠ 0
  | .int z => z ≠ 0
  | .long t => t ≠ 0

/-- `sanity_checks` for two shares, `replicatedshare_tensor.py:298-309`. -/
def checkPrivate (x y : RST E) : Py Unit :=
  if y.sessionUuid.isSome ∧ x.sessionUuid.isSome ∧ x.sessionUuid ≠ y.sessionUuid then .error .valueError
  else if x.shares.length ≠ y.shares.length then .error .valueError
  else if x.ringSize ≠ y.ringSize then .error .valueError
  else .ok ()

/-- rank and number of parties of the session `sanity_checks` returns, `replicatedshare_tensor.py:311-317`: a share
without session gets a fresh session with rank -1 and one party.  A session that is not known is `None`, whose
attributes cannot be read. -/
def sessionOf (env : Env) (x : RST E) : Py (Int × Nat) :=
  match x.sessionUuid with
  | none => .ok (-1, 1)
  | some u =>
    match env u with
    | none => .error .attributeError
    | some p => .ok (p.rank, p.nrParties)

/-- the ring operation for add or sub -/
def lin (I : RingOps E) : MPCTensor.LinOp → E → E → E
  | .add => I.add
  | .sub => I.sub

/-- `__apply_public_op`, `replicatedshare_tensor.py:321-354`, for an already encoded public value: every party but
the one with rank 1 changes the share at index `(nr_parties - rank) % nr_parties`. -/
def publicOp (I : RingOps E) (env : Env) (op : MPCTensor.LinOp) (x : RST E) (y : E) : Py (RST E) := do
  let (rank, nr) ← sessionOf env x
  if rank ≠ 1 then
    if nr = 0 then throw PyErr.zeroDivision
    let idx := (((nr : Int) - rank) % (nr : Int)).toNat
    let s ← pyGet x.shares idx
    return new (x.shares.set idx (lin I op s y)) x.sessionUuid x.config x.ringSize
  else
    return new x.shares x.sessionUuid x.config x.ringSize

/-- `__apply_private_op`, `replicatedshare_tensor.py:356-388`. -/
def privateOp (I : RingOps E) (op : MPCTensor.LinOp) (x y : RST E) : Py (RST E) := do
  checkPrivate x y
  return new (List.zipWith (lin I op) x.shares y.shares) x.sessionUuid x.config x.ringSize

/-- `rsub`, `replicatedshare_tensor.py:442-453`: like the code, `self - y`. -/
def rsubPublic (I : RingOps E) (env : Env) (x : RST E) (y : E) : Py (RST E) := publicOp I env .sub x y

/-- `mul` with a public value, `replicatedshare_tensor.py:484-492`: every share is multiplied. -/
def publicMul (I : RingOps E) (x : RST E) (y : E) : RST E :=
  new (x.shares.map fun s => I.mul s y) x.sessionUuid x.config x.ringSize

/-- `xor` with a public value, `replicatedshare_tensor.py:626-645`; `y` is the encoded operand and `two` the encoded
constant 2. -/
def publicXor (I : RingOps E) (env : Env) (x : RST E) (y two : E) : Py (RST E) :=
  if x.ringSize = 2 then publicOp I env .add x y
  else
    match getTypeFromRing x.ringSize with
    | .error _ => .error .valueError
    | .ok _ => do
      let a ← publicOp I env .add x y
      privateOp I .sub a (publicMul I (publicMul I x y) two)

/-- a forwarded method (`t`, `view`, ...) `replicatedshare_tensor.py:1025-1040`. -/
def hookMethod {E' : Type} (f : E → E') (x : RST E) : RST E' :=
  new (x.shares.map f) x.sessionUuid x.config x.ringSize

/-- `__reconstruct_semi_honest`, `replicatedshare_tensor.py:763-790`: the first share of the first party and all
shares of the second. -/
def reconstructSemiHonest (I : RingOps E) (ps : List (RST E)) : Py E := do
  let p0 ← pyGet ps 0
  let s0 ← pyGet p0.shares 0
  let p1 ← pyGet ps 1
  I.sum (s0 :: p1.shares)

/-- `shares_sum([all_shares[rank][0]] + all_shares[(rank + 1) % nparties])`, `replicatedshare_tensor.py:822-825`. -/
def openAt (I : RingOps E) (ps : List (RST E)) (rank : Nat) : Py E := do
  let p ← pyGet ps rank
  let s ← pyGet p.shares 0
  let q ← pyGet ps ((rank + 1) % ps.length)
  I.sum (s :: q.shares)

/-- the loop of `__reconstruct_malicious`, `replicatedshare_tensor.py:820-833` -/
def openLoop [DecidableEq E] (I : RingOps E) (ps : List (RST E)) : List Nat → Option E → Py (Option E)
  | [], value => .ok value
  | r :: rs, value => do
    let t ← openAt I ps r
    match value with
    | none => openLoop I ps rs (some t)
    | some v => if t ≠ v then .error .valueError else openLoop I ps rs (some v)

/-- `__reconstruct_malicious`, `replicatedshare_tensor.py:792-838` (`get_shares=False`). -/
def reconstructMalicious [DecidableEq E] (I : RingOps E) (ps : List (RST E)) : Py E := do
  match ← openLoop I ps (List.range ps.length) none with
  | some v => return v
  | none => throw PyErr.indexError

/-- `reconstruct`, `replicatedshare_tensor.py:840-872`. -/
def reconstruct [DecidableEq E] (I : RingOps E) (ps : List (RST E)) (sec : Security) : Py E :=
  if ps = [] then .error .valueError
  else match sec with
    | .malicious => reconstructMalicious I ps
    | .semiHonest => reconstructSemiHonest I ps

/-- `distribute_shares_to_party`, `replicatedshare_tensor.py:874-919`. -/
def distributeToParty (shares : List E) (rank : Nat) (s : Session) (ringSize : Nat) (config : Config) : Py (RST E) := do
  let _ ← pyGet s.parties rank
  let nshares := s.nrParties - 1
  let ps ← (List.range' rank nshares).mapM fun i => pyGet shares (i % (nshares + 1))
  match s.rankToUuid[rank]? with
  | none => throw PyErr.keyError
  | some u => return new ps (some u) config ringSize

/-- `distribute_shares`, `replicatedshare_tensor.py:921-961`.  With a wrong number of shares the code *returns* a
`ValueError` object; the model raises it. -/
def distributeShares (shares : List E) (s : Session) (ringSize : Nat) (config : Config) : Py (List (RST E)) :=
  if shares.length ≠ s.nrParties then .error .valueError
  else (List.range s.nrParties).mapM fun r => distributeToParty shares r s ringSize config

end RST

/-- `MPCTensor` with replicated shares. -/
structure RMPC (E : Type) where
  session : Session
  shares : List (RST E)

namespace RMPC

variable {E : Type}

/-- `MPCTensor(shares=..., session=...)`, `mpc_tensor.py:161-164, 193-199`. -/
def ofShares (s : Session) (shares : List (RST E)) : Py (RMPC E) :=
  if s.sessionPtrs.length = 0 then .error .valueError
  else if shares = [] then .error .indexError
  else .ok { session := s, shares := shares }

/-- `MPCTensor(secret=..., session=...)` with replicated shares, `mpc_tensor.py:161-199`: additive shares `adds` of the
secret (made by `generate_shares` as in `Verif/Model/Share.lean`) are distributed by the protocol's share class. -/
def ofAdditive (s : Session) (adds : List E) : Py (RMPC E) := do
  if s.sessionPtrs.length = 0 then throw PyErr.valueError
  if adds = [] then throw PyErr.indexError
  let shares ← RST.distributeShares adds s s.ringSize s.config
  return { session := s, shares := shares }

/-- `reconstruct(decode=False)`, `mpc_tensor.py:376-380`. -/
def reconstruct [DecidableEq E] (I : RingOps E) (x : RMPC E) : Py E :=
  RST.reconstruct I x.shares x.session.protocol.security

/-- `__apply_private_op` for add and sub, `mpc_tensor.py:672-678, 708-717`. -/
def privateLin (I : RingOps E) (op : MPCTensor.LinOp) (x y : RMPC E) : Py (RMPC E) := do
  MPCTensor.checkPrivate x.session y.session
  let shares ← (x.shares.zip y.shares).mapM fun (a, b) => RST.privateOp I op a b
  ofShares x.session shares

/-- `__apply_public_op` for add and sub, `mpc_tensor.py:742-755`: every party is asked. -/
def publicLin (I : RingOps E) (env : Env) (op : MPCTensor.LinOp) (x : RMPC E) (y : E) : Py (RMPC E) := do
  let shares ← x.shares.mapM fun s => RST.publicOp I env op s y
  ofShares x.session shares

/-- `__apply_public_op` for mul, `mpc_tensor.py:739-740`, without the truncation that follows. -/
def publicMul (I : RingOps E) (x : RMPC E) (y : E) : Py (RMPC E) :=
  ofShares x.session (x.shares.map fun s => RST.publicMul I s y)

/-- `__apply_public_op` for xor, `mpc_tensor.py:742-755`. -/
def publicXor (I : RingOps E) (env : Env) (x : RMPC E) (y two : E) : Py (RMPC E) := do
  let shares ← x.shares.mapM fun s => RST.publicXor I env s y two
  ofShares x.session shares

/-- a forwarded method, `mpc_tensor.py:1036-1056` -/
def hookMethod {E' : Type} (f : E → E') (x : RMPC E) : Py (RMPC E') :=
  ofShares x.session (x.shares.map (RST.hookMethod f))

end RMPC

end SyMPC

namespace SyMPC

/-- `shares_sum` on int64 tensors for a given ring size, `replicatedshare_tensor.py:726-742`: `addmodprime` refuses a
type other than uint8. -/
def sumByRing (ringSize : Nat) (l : List I64) : Py I64 :=
  if ringSize = 2 then reduce1 (· ^^^ ·) l
  else if ringSize = primeNumber then
    match l with
    | [] => .error .typeError
    | [a] => .ok a
    | _ :: _ :: _ => .error .valueError
  else .ok (l.foldl (· + ·) 0)

/-- The opening of int64 shares with malicious security as the code does it: the ring is the one the *first party's*
tensor carries, `replicatedshare_tensor.py:816-817`. -/
def openTagged (ps : List (RST I64)) : Py I64 := do
  let p ← pyGet ps 0
  RST.reconstructMalicious { powOps 64 with sum := sumByRing p.ringSize } ps

/-- The loop of `MPCTensor.__init__` for a remote secret, `mpc_tensor.py:176-182`, with replicated shares.  `enc` encodes
the secret with the configuration of the share (`replicatedshare_tensor.py:291-296`). -/
def addRemoteR {P E : Type} (I : RingOps E) (enc : Config → P → E) (env : Env) (holder : Nat) (secret : P) :
    List (Nat × RST E) → Py (List (RST E))
  | [] => .ok []
  | (c, sh) :: rest =>
    if c = holder then do
      let sh' ← RST.publicOp I env .add sh (enc sh.config secret)
      return sh' :: rest.map (·.2)
    else do
      let rest' ← addRemoteR I enc env holder secret rest
      return sh :: rest'

/-- `MPCTensor(secret=<pointer at holder>, shape=...)` with replicated shares, `mpc_tensor.py:161-199, 255-278`: the zero
share of a party is a replicated tensor with a *single* share and precision 0 (`session.py:249-258`). -/
def RMPC.ofRemote {P E : Type} (I : RingOps E) (enc : Config → P → E) (env : Env) (s : Session) (holder : Nat) (secret : P)
    (zeros : List E) : Py (RMPC E) := do
  if s.sessionPtrs.length = 0 then throw PyErr.valueError
  let shares : List (Nat × RST E) := (s.parties.zip (s.rankToUuid.zip zeros)).map fun (c, u, z) =>
    (c, RST.new [z] (some u) { encoderPrecision := 0 } s.ringSize)
  let shares ← addRemoteR I enc env holder secret shares
  RMPC.ofShares s shares

end SyMPC
