import Verif.Model.Rst
import Verif.Model.Przs
import Mathlib.Data.Fintype.Defs

/-!
# Falcon multiplication and ABY3 truncation on three-party replicated shares

`src/sympc/protocol/falcon/falcon.py`, `src/sympc/protocol/aby3/aby3.py`, `src/sympc/protocol/beaver/beaver.py`,
`src/sympc/tensor/mpc_tensor.py`

The two operands and the result of a product have types `A`, `B`, `C` (tensors of three shapes, or one element).
Randomness is an argument.  Simplification: the shapes an `MPCTensor` carries are left out.
-/

namespace SyMPC

/-- What the code selects by the ring size of a tensor: the operations, the encoding of a public value with the
configuration of a share (`sanity_checks`, `replicatedshare_tensor.py:287-296`), the local truncation
(`aby3.py:92-97`), the tests `(x == 0).all()` and `(x != y).all()` and the conversion of a bit (`.type(tensor_type)`,
`aby3.py:255-258`). -/
structure RingKit (E : Type) where
  size : Nat
  ops : RingOps E
  enc : Config → FixedPointEncoder.Val → E
  shift : Config → E → E
  isZero : E → Bool
  neAll : E → E → Bool
  ofBool : Bool → E

/-- the bit ring; there is no truncation in it (`aby3.py:138, 149`) -/
def binKit : RingKit Bool :=
  { size := 2, ops := binOps, enc := fun _ => RST.encBin, shift := fun _ x => x, isZero := fun b => !b, neAll := fun a b => a != b,
    ofBool := id }

/-- the prime ring; there is no truncation in it (`aby3.py:138, 149`) -/
def primeKit : RingKit (BitVec 8) :=
  { size := primeNumber, ops := primeOps, enc := fun _ => RST.encPrime, shift := fun _ x => x,
    isZero := fun b => b == 0, neAll := fun a b => a != b, ofBool := fun b => if b then 1 else 0 }

/-- `x >> precision if base == 2 else x // scale`, `aby3.py:96-97` -/
def shiftPow (w : Nat) (c : Config) (x : BitVec w) : BitVec w :=
  if c.encoderBase = 2 then x.sshiftRight c.encoderPrecision
  else floordiv x (BitVec.ofNat w (c.encoderBase ^ c.encoderPrecision))

/-- the rings `2**w` -/
def powKit (w : Nat) : RingKit (BitVec w) :=
  { size := 2 ^ w, ops := powOps w, enc := RST.encPow w, shift := shiftPow w, isZero := fun b => b == 0,
    neAll := fun a b => a != b, ofBool := fun b => if b then 1 else 0 }

/-- The same on tensors with finitely many elements. -/
def RingKit.tensor {E : Type} (K : RingKit E) (ι : Type) [Fintype ι] : RingKit (ι → E) :=
  { size := K.size, ops := K.ops.tensor ι, enc := fun c v _ => K.enc c v, shift := fun c x i => K.shift c (x i),
    isZero := fun x => decide (∀ i, K.isZero (x i) = true), neAll := fun x y => decide (∀ i, K.neAll (x i) (y i) = true),
    ofBool := fun b _ => K.ofBool b }

/-- `parallel_execution(fn, parties)(args)`, `src/sympc/utils/utils.py:97-124`: the i-th call runs at the i-th party. -/
def parallelExecution {α β : Type} (parties : List Nat) (f : α → Py β) (args : List α) : Py (List β) :=
  if args.isEmpty then .error .valueError
  else if parties.length < args.length then .error .indexError
  else args.mapM f

/-- the session a share belongs to and its uuid, `get_session(x.session_uuid)` -/
def RST.getSession {E : Type} (env : Env) (x : RST E) : Py (Nat × PartySession) :=
  match x.sessionUuid with
  | none => .error .attributeError
  | some u => match env u with
    | none => .error .attributeError
    | some p => .ok (u, p)

/-- A product: its name and what `get_op` returns for it. -/
structure Product (A B C : Type) where
  opStr : OpStr
  op : A → B → C

/-- the element-wise product -/
def RingKit.product {E : Type} (K : RingKit E) : Product E E E := ⟨.mul, K.ops.mul⟩

/-- What one party holds of a replicated triple. -/
structure RTriple (A B C : Type) where
  a : RST A
  b : RST B
  c : RST C

/-- The randomness of one product: the zero share party `r` adds (`session.py:250-258`), the triple that the store of the
party with session uuid `u` returns (malicious security only), and the mask drawn by the truncation. -/
structure MulRand (A B C : Type) where
  mask : Nat → C
  triple : Nat → Py (RTriple A B C)
  trunc : C

namespace ABY3

variable {E : Type}

/-- `truncation_algorithm1`, `aby3.py:71-102`; `r` is the random value drawn by the orchestrator. -/
def truncationAlgorithm1 (K : RingKit E) (xs : List E) (s : Session) (q : Nat) (c : Config) (r : E) : Py (List (RST E)) :=
  match getTypeFromRing q with
  | .error e => .error e
  | .ok _ =>
    match xs with
    | [x1, x2, x3] =>
      RST.distributeShares [K.shift c x1, K.ops.sub (K.shift c (K.ops.add x2 x3)) r, r] s q c
    | _ => .error .valueError

/-- `truncate` on a tensor whose shares are plain tensors (results of a private product), `aby3.py:127-128, 147-163`. -/
def truncateRaw (K : RingKit E) (zs : List E) (s : Session) (q : Nat) (c : Config) (r : E) : Py (RMPC E) := do
  if s.nrParties ≠ 3 then throw PyErr.valueError
  let shares ← if q = 2 ∨ q = primeNumber then RST.distributeShares zs s q c else truncationAlgorithm1 K zs s q c r
  RMPC.ofShares s shares

/-- `truncate` on a tensor of replicated shares, `aby3.py:127-146, 161-163`. -/
def truncate (K : RingKit E) (x : RMPC E) (s : Session) (q : Nat) (c : Config) (r : E) : Py (RMPC E) := do
  if s.nrParties ≠ 3 then throw PyErr.valueError
  if q = 2 ∨ q = primeNumber then RMPC.ofShares s x.shares
  else
    let p0 ← pyGet x.shares 0
    let s0 ← pyGet p0.shares 0
    let p1 ← pyGet x.shares 1
    let shares ← truncationAlgorithm1 K (s0 :: p1.shares) s q c r
    RMPC.ofShares s shares

end ABY3

namespace Falcon

variable {A B C : Type}

/-- `multiplication_protocol`, `falcon.py:380-407`. -/
def multiplicationProtocol (I : RingOps C) (P : Product A B C) (x : RST A) (y : RST B) : Py C := do
  let _ ← getOp x.ringSize P.opStr
  let x0 ← pyGet x.shares 0
  let y0 ← pyGet y.shares 0
  let x1 ← pyGet x.shares 1
  let y1 ← pyGet y.shares 1
  I.sum [P.op x0 y0, P.op x1 y0, P.op x0 y1]

/-- `compute_zvalue_and_add_mask`, `falcon.py:348-377`; the mask is the zero share drawn by the party. -/
def computeZvalueAndAddMask (I : RingOps C) (env : Env) (P : Product A B C) (mask : Nat → C) (x : RST A) (y : RST B) :
    Py C := do
  let (_, p) ← x.getSession env
  let z ← multiplicationProtocol I P x y
  return I.add z (mask p.rank.toNat)

/-- the first part of `mul_semi_honest`, `falcon.py:160-168`: one plain tensor per party -/
def mulShares (I : RingOps C) (env : Env) (P : Product A B C) (mask : Nat → C) (s : Session) (x : RMPC A) (y : RMPC B) :
    Py (List C) := do
  let zs ← parallelExecution s.parties (fun (a, b) => computeZvalueAndAddMask I env P mask a b) (x.shares.zip y.shares)
  if x.session.sessionPtrs.length = 0 then throw PyErr.valueError
  return zs

/-- `mul_semi_honest(reshare=True)`, `falcon.py:133-182`. -/
def mulReshare (I : RingOps C) (env : Env) (P : Product A B C) (mask : Nat → C) (s : Session) (q : Nat) (c : Config)
    (x : RMPC A) (y : RMPC B) : Py (RMPC C) := do
  let zs ← mulShares I env P mask s x y
  let shares ← RST.distributeShares zs x.session q c
  RMPC.ofShares x.session shares

/-- `falcon_mask`, `falcon.py:245-269`. -/
def falconMask (IA : RingOps A) (IB : RingOps B) (env : Env) (triple : Nat → Py (RTriple A B C)) (x : RST A) (y : RST B) :
    Py (RST A × RST B) := do
  let (u, _) ← x.getSession env
  let t ← triple u
  let e ← RST.privateOp IA .sub x t.a
  let d ← RST.privateOp IB .sub y t.b
  return (e, d)

/-- `rst_share.shares[i] = shares_sum([rst_share.shares[i], eps_delta], ring_size)`, `falcon.py:231-239` -/
def addAt (I : RingOps C) (i : Nat) (e : C) (r : RST C) : Py (RST C) := do
  let v ← pyGet r.shares i
  let w ← I.sum [v, e]
  return { r with shares := r.shares.set i w }

/-- `triple_verification`, `falcon.py:184-243`.  Simplification: shares of a triple beyond the two that the loop of lines
225-227 rewrites are dropped (a party holds two). -/
def tripleVerification (I : RingOps C) (env : Env) (P : Product A B C) (triple : Nat → Py (RTriple A B C)) (eps : A)
    (delta : B) (z : RST C) : Py (RST C) := do
  let (u, p) ← z.getSession env
  let t ← triple u
  let _ ← getOp z.ringSize P.opStr
  let b0 ← pyGet t.b.shares 0
  let a0 ← pyGet t.a.shares 0
  let b1 ← pyGet t.b.shares 1
  let a1 ← pyGet t.a.shares 1
  let epsB := RST.new [P.op eps b0, P.op eps b1] t.b.sessionUuid t.b.config t.b.ringSize
  let deltaA := RST.new [P.op a0 delta, P.op a1 delta] t.a.sessionUuid t.a.config t.a.ringSize
  let r ← RST.privateOp I .add t.c deltaA
  let r ← RST.privateOp I .add r epsB
  let r ← if p.rank = 0 then addAt I 0 (P.op eps delta) r else .ok r
  let r ← if p.rank = 2 then addAt I 1 (P.op eps delta) r else .ok r
  RST.privateOp I .sub z r

/-- the check of `mul_malicious` on given product shares `z`, `falcon.py:306-346`: returns `z` or raises -/
def verifyProduct [DecidableEq A] [DecidableEq B] [DecidableEq C] (KA : RingKit A) (KB : RingKit B) (KC : RingKit C)
    (env : Env) (P : Product A B C) (triple : Nat → Py (RTriple A B C)) (s : Session) (x : RMPC A) (y : RMPC B)
    (z : RMPC C) : Py (RMPC C) := do
  let mask ← parallelExecution s.parties (fun (a, b) => falconMask KA.ops KB.ops env triple a b) (x.shares.zip y.shares)
  let local_ ← (List.range s.nrParties).mapM (pyGet mask)
  let eps ← RST.reconstruct KA.ops (local_.map (·.1)) .semiHonest
  let delta ← RST.reconstruct KB.ops (local_.map (·.2)) .semiHonest
  let ts ← parallelExecution s.parties (tripleVerification KC.ops env P triple eps delta) z.shares
  let t ← RMPC.ofShares x.session ts
  let v ← t.reconstruct KC.ops
  if KC.isZero v then return z else throw PyErr.valueError

/-- `mul_malicious`, `falcon.py:271-346`, for triples that are in the stores. -/
def mulMalicious [DecidableEq A] [DecidableEq B] [DecidableEq C] (KA : RingKit A) (KB : RingKit B) (KC : RingKit C)
    (env : Env) (P : Product A B C) (rnd : MulRand A B C) (s : Session) (q : Nat) (c : Config) (x : RMPC A) (y : RMPC B) :
    Py (RMPC C) := do
  let z ← mulReshare KC.ops env P rnd.mask s q c x y
  verifyProduct KA KB KC env P rnd.triple s x y z

/-- `mul_master`, `falcon.py:85-131`, with the session check of `__apply_private_op`, `mpc_tensor.py:672-678, 689-691`. -/
def mulMaster [DecidableEq A] [DecidableEq B] [DecidableEq C] (KA : RingKit A) (KB : RingKit B) (KC : RingKit C)
    (env : Env) (P : Product A B C) (rnd : MulRand A B C) (x : RMPC A) (y : RMPC B) : Py (RMPC C) := do
  MPCTensor.checkPrivate x.session y.session
  if x.session.parties.length ≠ 3 then throw PyErr.valueError
  let p ← pyGet x.shares 0
  match x.session.protocol.security with
  | .semiHonest =>
    let zs ← mulShares KC.ops env P rnd.mask x.session x y
    ABY3.truncateRaw KC zs x.session p.ringSize p.config rnd.trunc
  | .malicious =>
    let z ← mulMalicious KA KB KC env P rnd x.session p.ringSize p.config x y
    ABY3.truncate KC z x.session p.ringSize p.config rnd.trunc

end Falcon

/-! ## `MPCTensor` operations on replicated shares in one ring -/

namespace RMPC

variable {E : Type}

/-- the product of two secrets, element by element -/
def mulPrivate [DecidableEq E] (K : RingKit E) (env : Env) (rnd : MulRand E E E) (x y : RMPC E) : Py (RMPC E) :=
  Falcon.mulMaster K K K env K.product rnd x y

/-- add or subtract a public tensor, `mpc_tensor.py:742-755`; every party encodes it with its share's configuration (`e c`
is the tensor encoded with configuration `c`). -/
def linEnc (I : RingOps E) (env : Env) (op : MPCTensor.LinOp) (x : RMPC E) (e : Config → E) : Py (RMPC E) := do
  let shares ← x.shares.mapM fun s => RST.publicOp I env op s (e s.config)
  ofShares x.session shares

/-- multiply by a public tensor and truncate, `mpc_tensor.py:739-740, 754, 812-820`; `r` is the mask of the truncation. -/
def mulEnc (K : RingKit E) (x : RMPC E) (e : Config → E) (r : E) : Py (RMPC E) := do
  let z ← ofShares x.session (x.shares.map fun s => RST.publicMul K.ops s (e s.config))
  let p ← pyGet x.shares 0
  ABY3.truncate K z x.session p.ringSize p.config r

/-- `y - x` for a public tensor `y`, `mpc_tensor.py:441-450`: `(x - y) * -1` -/
def rsubEnc (K : RingKit E) (env : Env) (x : RMPC E) (e : Config → E) (r : E) : Py (RMPC E) := do
  let d ← linEnc K.ops env .sub x e
  mulEnc K d (fun c => K.enc c (.int (-1))) r

/-- add or subtract a public number -/
def linPublic (K : RingKit E) (env : Env) (op : MPCTensor.LinOp) (x : RMPC E) (v : FixedPointEncoder.Val) : Py (RMPC E) :=
  linEnc K.ops env op x (fun c => K.enc c v)

/-- multiply by a public number and truncate -/
def mulPublic (K : RingKit E) (x : RMPC E) (v : FixedPointEncoder.Val) (r : E) : Py (RMPC E) :=
  mulEnc K x (fun c => K.enc c v) r

/-- `y - x` for a public number `y` -/
def rsubPublicTrunc (K : RingKit E) (env : Env) (x : RMPC E) (v : FixedPointEncoder.Val) (r : E) : Py (RMPC E) :=
  rsubEnc K env x (fun c => K.enc c v) r

/-- `x ^ y` for two secrets, `mpc_tensor.py:699-704` -/
def xorPrivate [DecidableEq E] (K : RingKit E) (env : Env) (rnd : MulRand E E E) (r : E) (x y : RMPC E) : Py (RMPC E) := do
  MPCTensor.checkPrivate x.session y.session
  let p ← pyGet x.shares 0
  if p.ringSize = 2 then privateLin K.ops .add x y
  else
    let a ← privateLin K.ops .add x y
    let m ← mulPrivate K env rnd x y
    let m2 ← mulPublic K m (.int 2) r
    privateLin K.ops .sub a m2

/-- `x ^ y` for a public tensor `y`, `mpc_tensor.py:742-755` with `replicatedshare_tensor.py:626-645` -/
def xorEnc (K : RingKit E) (env : Env) (x : RMPC E) (e : Config → E) : Py (RMPC E) := do
  let shares ← x.shares.mapM fun s => RST.publicXor K.ops env s (e s.config) (K.enc s.config (.int 2))
  ofShares x.session shares

/-- `x ^ y` for a public number `y` -/
def xorPublic (K : RingKit E) (env : Env) (x : RMPC E) (v : FixedPointEncoder.Val) : Py (RMPC E) :=
  xorEnc K env x (fun c => K.enc c v)

/-- A tensor of random shares in ring `q` as the parties' generators give it, `session.py:262-303`: `draw r` is what the
generator seeded for rank `r` returns (C06 shows that neighbours draw the same). -/
def random (env : Env) (s : Session) (q : Nat) (draw : Nat → E) : Py (RMPC E) := do
  let shares ← s.sessionPtrs.mapM fun p =>
    match env p.uuid with
    | none => .error .attributeError
    | some p' => .ok (RST.new [draw p'.rank.toNat, draw ((p'.rank.toNat + 1) % p'.nrParties)] (some p.uuid)
        { encoderPrecision := 0 } q)
  ofShares s shares

end RMPC

/-! ## Triples for malicious security -/

namespace Falcon

variable {A B C : Type}

/-- The randomness of one run of `_get_triples` for replicated shares. -/
structure RTripleRand (A B C : Type) where
  a : Nat → A
  b : Nat → B
  mask : Nat → C

/-- `_get_triples` for replicated shares, the part after the shares were fetched, `beaver.py:127-143, 163`: the triple of
each party.  The check is the code's: it raises only if *all* positions are wrong. -/
def checkTriples (KA : RingKit A) (KB : RingKit B) (KC : RingKit C) (P : Product A B C) (q : Nat) (as : List (RST A))
    (bs : List (RST B)) (cs : List (RST C)) : Py (List (RTriple A B C)) := do
  let av ← RST.reconstructSemiHonest KA.ops as
  let bv ← RST.reconstructSemiHonest KB.ops bs
  let cv ← RST.reconstructSemiHonest KC.ops cs
  let _ ← getOp q P.opStr
  if KC.neAll cv (P.op av bv) then throw PyErr.valueError
  return (as.zip (bs.zip cs)).map fun (a, b, c) => ⟨a, b, c⟩

/-- `_get_triples` for replicated shares, `beaver.py:70-72, 104-165`; the configuration is that of line 70 whatever the caller
passes. -/
def getTriples (KA : RingKit A) (KB : RingKit B) (KC : RingKit C) (env : Env) (P : Product A B C) (s : Session) (q : Nat)
    (rnd : RTripleRand A B C) : Py (List (RTriple A B C)) := do
  let a ← RMPC.random env s q rnd.a
  let b ← RMPC.random env s q rnd.b
  let z ← mulReshare KC.ops env P rnd.mask s q { encoderPrecision := 0 } a b
  checkTriples KA KB KC P q a.shares b.shares z.shares

/-- The triples in the stores of the parties for one operation and pair of shapes, by session uuid. -/
abbrev Triples (A B C : Type) := Nat → List (RTriple A B C)

/-- what a store returns first, `beaver.py:217-232` -/
def front (st : Triples A B C) (u : Nat) : Py (RTriple A B C) :=
  match st u with
  | [] => .error .emptyStore
  | t :: _ => .ok t

/-- `generate_primitives` for replicated shares, `crypto_primitive_provider.py:26-95`; the tags it sets are those the
shares carry already. -/
def generate (KA : RingKit A) (KB : RingKit B) (KC : RingKit C) (env : Env) (P : Product A B C) (s : Session) (q : Nat)
    (rnd : RTripleRand A B C) (st : Triples A B C) : Py (Triples A B C) := do
  let ts ← getTriples KA KB KC env P s q rnd
  if ts.length ≠ s.sessionPtrs.length then throw PyErr.valueError
  return (ts.zip s.sessionPtrs).foldl (fun st (t, p) u => if u = p.uuid then st u ++ [t] else st u) st

/-- `mul_malicious` with its store, `falcon.py:271-346`: a triple is generated if a store has none; the verification
takes the triple out of the stores (line 212). -/
def mulMaliciousStore [DecidableEq A] [DecidableEq B] [DecidableEq C] (KA : RingKit A) (KB : RingKit B) (KC : RingKit C)
    (env : Env) (P : Product A B C) (mask : Nat → C) (gen : RTripleRand A B C) (s : Session) (q : Nat) (c : Config)
    (x : RMPC A) (y : RMPC B) (st : Triples A B C) : Py (RMPC C × Triples A B C) := do
  let z ← mulReshare KC.ops env P mask s q c x y
  let st ← (match parallelExecution s.parties (fun (a, b) => falconMask KA.ops KB.ops env (front st) a b)
      (x.shares.zip y.shares) with
    | .error .emptyStore => generate KA KB KC env P s q gen st
    | _ => .ok st : Py (Triples A B C))
  let z ← verifyProduct KA KB KC env P (front st) s x y z
  return (z, fun u => if u ∈ s.rankToUuid then (st u).tail else st u)

end Falcon

end SyMPC
