import Verif.Model.Falcon

/-!
# Conversions between bits and numbers, comparison and selection

`src/sympc/protocol/aby3/aby3.py:213-428`, `src/sympc/protocol/falcon/falcon.py:409-555`,
`src/sympc/tensor/mpc_tensor.py:621-652`

Tensors have a finite index type `ι`.  Randomness is an argument, as in `Verif/Model/Falcon.lean`.
-/

namespace SyMPC

/-- A value that is a Python int or a secret tensor. -/
inductive Term (E : Type) where
  | int (z : Int)
  | mpc (x : RMPC E)

namespace Term

variable {E : Type}

/-- `x + b` for a secret tensor `x` -/
def addMpc (K : RingKit E) (env : Env) (x : RMPC E) : Term E → Py (RMPC E)
  | .int b => RMPC.linPublic K env .add x (.int b)
  | .mpc y => RMPC.privateLin K.ops .add x y

/-- `a + b`, `mpc_tensor.py:1168-1169` -/
def add (K : RingKit E) (env : Env) : Term E → Term E → Py (Term E)
  | .int a, .int b => .ok (.int (a + b))
  | .int a, .mpc y => do return .mpc (← addMpc K env y (.int a))
  | .mpc x, b => do return .mpc (← addMpc K env x b)

/-- `x * b` for a secret tensor `x` -/
def mulMpc [DecidableEq E] (K : RingKit E) (env : Env) (rnd : MulRand E E E) (x : RMPC E) : Term E → Py (RMPC E)
  | .int b => RMPC.mulPublic K x (.int b) rnd.trunc
  | .mpc y => RMPC.mulPrivate K env rnd x y

/-- `a * b`, `mpc_tensor.py:1173-1174` -/
def mul [DecidableEq E] (K : RingKit E) (env : Env) (rnd : MulRand E E E) : Term E → Term E → Py (Term E)
  | .int a, .int b => .ok (.int (a * b))
  | .int a, .mpc y => do return .mpc (← mulMpc K env rnd y (.int a))
  | .mpc x, b => do return .mpc (← mulMpc K env rnd x b)

/-- the loop of `pow`, `mpc_tensor.py:641-652`; `mul` takes the number of the product for its randomness -/
def powLoop {T : Type} (mul : Nat → T → T → Py T) (power : Nat) (result base : T) (k : Nat) : Py T :=
  if h : power = 0 then .ok result
  else do
    let result ← if power % 2 = 1 then mul (2 * k) result base else .ok result
    let base ← mul (2 * k + 1) base base
    powLoop mul (power / 2) result base (k + 1)
termination_by power
decreasing_by omega

/-- `MPCTensor.pow` for replicated shares, `mpc_tensor.py:621-652`: the result for exponent 0 is the Python int 1. -/
def pow [DecidableEq E] (K : RingKit E) (env : Env) (rnd : Nat → MulRand E E E) (x : RMPC E) (power : Int) : Py (Term E) :=
  if power < 0 then .error .runtimeError
  else powLoop (fun k => mul K env (rnd k)) power.toNat (.int 1) (.mpc x) 0

end Term

namespace RST

/-- `bit_extraction`, `replicatedshare_tensor.py:586-613`. -/
def bitExtraction {w : Nat} {ι : Type} (x : RST (ι → BitVec w)) (pos : Nat) : Py (RST (ι → Bool)) :=
  if pos > getNrBits x.ringSize - 1 then .error .valueError
  else .ok (RST.new (x.shares.map fun s j => decide ((s j &&& (1#w <<< pos)) ≠ 0)) x.sessionUuid
    { encoderBase := 1, encoderPrecision := 0 } 2)

end RST

namespace ABY3

variable {B E : Type}

/-- The checks of `local_decomposition` and the session of the share, `aby3.py:229-235`. -/
def decompositionSession (env : Env) (x : RST B) : Py PartySession :=
  match x.sessionUuid with
  | none => .error .valueError
  | some u =>
    match env u with
    | none => .error .attributeError
    | some p => if p.nrParties ≠ 3 then .error .valueError else .ok p

/-- One round of the loop of `local_decomposition`, `aby3.py:252-268`: the two shares of `share` are placed in three
tensors; `uuid` and `config` are those of `x.clone()`. -/
def decompose (zero : E) (cast : B → E) (rank : Int) (uuid : Option Nat) (config : Config) (q : Nat) (share : RST B) :
    Py (List (RST E)) := do
  let s0 ← pyGet share.shares 0
  let s1 ← pyGet share.shares 1
  let r := rank.toNat
  if 3 ≤ r then throw PyErr.indexError
  return (List.range 3).map fun i =>
    ⟨[if i = r then cast s0 else zero, if i = (r + 1) % 3 then cast s1 else zero], uuid, config, q⟩

/-- `local_decomposition` with `bitwise=False`, `aby3.py:213-270`. -/
def localDecomposition (zero : E) (cast : B → E) (env : Env) (q : Nat) (x : RST B) : Py (List (List (RST E))) := do
  let p ← decompositionSession env x
  let _ ← getTypeFromRing q
  let l ← decompose zero cast p.rank x.sessionUuid (RST.initConfig x.config x.ringSize) q x
  return [l]

/-- `local_decomposition` with `bitwise=True`, `aby3.py:213-270`: one list of three tensors per bit of the session's
ring. -/
def localDecompositionBits {w : Nat} {ι : Type} (zero : E) (cast : (ι → Bool) → E) (env : Env) (q : Nat)
    (x : RST (ι → BitVec w)) : Py (List (List (RST E))) := do
  let p ← decompositionSession env x
  let _ ← getTypeFromRing q
  let bits ← (List.range (getNrBits p.ringSize)).mapM fun i => x.bitExtraction i
  bits.mapM (decompose zero cast p.rank x.sessionUuid (RST.initConfig x.config x.ringSize) q)

/-- The tensors made of what the parties computed for instance `i`: `x1`, `x2`, `x3` (`aby3.py:301-315, 371-386`). -/
def gather (s : Session) (ds : List (List (List (RST E)))) (i : Nat) : Py (RMPC E × RMPC E × RMPC E) := do
  let rows ← ds.mapM fun p => pyGet p i
  let x1 ← RMPC.ofShares s (← rows.mapM fun p => pyGet p 0)
  let x2 ← RMPC.ofShares s (← rows.mapM fun p => pyGet p 1)
  let x3 ← RMPC.ofShares s (← rows.mapM fun p => pyGet p 2)
  return (x1, x2, x3)

/-- The randomness of a private xor (outside the bit ring): a product and the truncation after the multiplication by 2. -/
structure XorRand (E : Type) where
  mul : MulRand E E E
  trunc : E

/-- `bit_injection`, `aby3.py:272-319`. -/
def bitInjection [DecidableEq E] (K : RingKit E) (cast : B → E) (env : Env) (rnd1 rnd2 : XorRand E) (x : RMPC B)
    (s : Session) : Py (RMPC E) := do
  let p ← pyGet x.shares 0
  if p.ringSize ≠ 2 then throw PyErr.valueError
  if s.nrParties ≠ 3 then throw PyErr.valueError
  let ds ← parallelExecution s.parties (localDecomposition (K.ofBool false) cast env K.size) x.shares
  let (x1, x2, x3) ← gather s ds 0
  let x12 ← RMPC.xorPrivate K env rnd1.mul rnd1.trunc x1 x2
  RMPC.xorPrivate K env rnd2.mul rnd2.trunc x12 x3

/-- One step of the carry chain, `aby3.py:340-343`: sum bit and carry. -/
def adderStep [DecidableEq B] (K : RingKit B) (env : Env) (ab cs : MulRand B B B) (a b : RMPC B) (c : Term B) :
    Py (RMPC B × Term B) := do
  let t ← RMPC.privateLin K.ops .add a b
  let s ← Term.addMpc K env t c
  let m ← RMPC.mulPrivate K env ab a b
  let t' ← RMPC.privateLin K.ops .add a b
  let n ← Term.mul K env cs c (.mpc t')
  let c' ← Term.addMpc K env m n
  return (s, .mpc c')

/-- the loop of `full_adder`, `aby3.py:337-345`, over the bits with index `idx` and above -/
def adderLoop [DecidableEq B] (K : RingKit B) (env : Env) (rnd : Nat → MulRand B B B × MulRand B B B)
    (as bs : List (RMPC B)) : Nat → Nat → Term B → Py (List (RMPC B))
  | 0, _, _ => .ok []
  | n + 1, idx, c => do
    let a ← pyGet as idx
    let b ← pyGet bs idx
    let (s, c') ← adderStep K env (rnd idx).1 (rnd idx).2 a b c
    let rest ← adderLoop K env rnd as bs n (idx + 1) c'
    return s :: rest

/-- `full_adder`, `aby3.py:321-345`. -/
def fullAdder [DecidableEq B] (K : RingKit B) (env : Env) (rnd : Nat → MulRand B B B × MulRand B B B)
    (as bs : List (RMPC B)) (s : Session) : Py (List (RMPC B)) :=
  adderLoop K env rnd as bs (getNrBits s.ringSize) 0 (.int 0)

/-- `bit_decomposition`, `aby3.py:347-392`.  Simplification: `zip` over the parties' lists stops at the shortest; here the
length of the first is used (a missing element raises). -/
def bitDecomposition {w : Nat} {ι : Type} [Fintype ι] (env : Env)
    (rnd1 rnd2 : Nat → MulRand (ι → Bool) (ι → Bool) (ι → Bool) × MulRand (ι → Bool) (ι → Bool) (ι → Bool))
    (x : RMPC (ι → BitVec w)) (s : Session) : Py (List (RMPC (ι → Bool))) := do
  let ds ← parallelExecution s.parties (localDecompositionBits (fun _ => false) id env 2) x.shares
  let xs ← (List.range (ds.headD []).length).mapM fun i => gather s ds i
  let x12 ← fullAdder (binKit.tensor ι) env rnd1 (xs.map (·.1)) (xs.map (·.2.1)) s
  fullAdder (binKit.tensor ι) env rnd2 x12 (xs.map (·.2.2)) s

/-- `bit_decomposition_ttp`, `aby3.py:394-428`; `r1 i`, `r2 i` are the random bits drawn for bit `i`. -/
def bitDecompositionTtp {w : Nat} {ι : Type} [Fintype ι] (r1 r2 : Nat → ι → Bool) (x : RMPC (ι → BitVec w)) (s : Session) :
    Py (List (RMPC (ι → Bool))) := do
  let t ← x.reconstruct ((powOps w).tensor ι)
  (List.range (getNrBits s.ringSize)).mapM fun i => do
    let secret : ι → Bool := fun j => decide ((t j &&& (1#w <<< i)) ≠ 0)
    let r3 ← (binOps.tensor ι).sum [secret, r1 i, r2 i]
    let shares ← RST.distributeShares [r1 i, r2 i, r3] s 2 { encoderBase := 1, encoderPrecision := 0 }
    RMPC.ofShares s shares

end ABY3

namespace Falcon

variable {E ι : Type} [Fintype ι] [DecidableEq E]

/-- The randomness of `select_shares`. -/
structure SelectRand (E ι : Type) where
  bit : Nat → ι → Bool
  inj1 : ABY3.XorRand (ι → E)
  inj2 : ABY3.XorRand (ι → E)
  m1 : ι → E
  m2 : ι → E
  m3 : ι → E
  mul : MulRand (ι → E) (ι → E) (ι → E)

/-- a public int64 tensor, encoded in the ring -/
def encLong (K : RingKit E) (t : ι → I64) (c : Config) (j : ι) : E := K.enc c (.long (t j))

/-- `select_shares`, `falcon.py:409-456`, for tensors of one shape in the session's ring.  `K` is the ring of the session;
the public mask has the type of that ring. -/
def selectShares (K : RingKit E) (env : Env) (rnd : SelectRand E ι) (x y : RMPC (ι → E)) (b : RMPC (ι → Bool)) :
    Py (RMPC (ι → E)) := do
  let p ← pyGet b.shares 0
  if p.ringSize ≠ 2 then throw PyErr.valueError
  let s := x.session
  let c ← RMPC.random env s 2 rnd.bit
  let cr ← ABY3.bitInjection (K.tensor ι) (fun t j => K.ofBool (t j)) env rnd.inj1 rnd.inj2 c s
  let bc ← RMPC.xorPrivate (binKit.tensor ι) env ⟨fun _ _ => false, fun _ => .error .emptyStore, fun _ => false⟩
    (fun _ => false) b c
  let mask ← bc.reconstruct (binOps.tensor ι)
  let m1 ← RMPC.mulEnc (K.tensor ι) cr (encLong K fun j => if mask j then 1 else 0) rnd.m1
  let d1 ← RMPC.rsubEnc (K.tensor ι) env m1 (encLong K fun j => if mask j then 1 else 0) rnd.m2
  let d2 ← RMPC.mulEnc (K.tensor ι) cr (encLong K fun j => (if mask j then 1 else 0) ^^^ 1) rnd.m3
  let d ← RMPC.privateLin (K.tensor ι).ops .add d1 d2
  let yx ← RMPC.privateLin (K.tensor ι).ops .sub y x
  let t ← RMPC.mulPrivate (K.tensor ι) env rnd.mul d yx
  RMPC.privateLin (K.tensor ι).ops .add x t

/-- One attempt of `_random_prime_group`: the draws of the scalar and the randomness of the power. -/
structure GroupRand (E ι : Type) where
  draw : Nat → E
  pow : Nat → MulRand (ι → E) (ι → E) (ι → E)

/-- `_random_prime_group`, `falcon.py:458-495`.  The scalar is repeated over the shape at the draw.  The code loops for ever;
here the attempts are a list and `RuntimeError` stands for a loop that goes on after them. -/
def randomPrimeGroup (K : RingKit E) (env : Env) (s : Session) : List (GroupRand E ι) → Py (RMPC (ι → E))
  | [] => .error .runtimeError
  | g :: gs => do
    let m ← RMPC.random env s primeNumber (fun r _ => g.draw r)
    let me ← Term.pow (K.tensor ι) env g.pow m (primeNumber - 1)
    match me with
    | .int _ => throw PyErr.attributeError
    | .mpc me =>
      let v ← me.reconstruct (K.tensor ι).ops
      if v = fun _ => K.ofBool true then return m else randomPrimeGroup K env s gs

/-- The randomness of one round of the loop of `private_compare`. -/
structure RoundRand (E : Type) where
  dbl : E
  one : E
  u : MulRand E E E
  prod : Nat → MulRand E E E
  last : MulRand E E E

/-- The randomness of `private_compare`. -/
structure CompareRand (E ι : Type) where
  bit : Nat → ι → Bool
  inj1 : ABY3.XorRand (ι → E)
  inj2 : ABY3.XorRand (ι → E)
  group : List (GroupRand E ι)
  round : Nat → RoundRand (ι → E)

/-- `math.prod(c)`: the left product starting from 1 -/
def mathProd (K : RingKit E) (env : Env) (rnd : Nat → MulRand E E E) :
    List (Term E) → Nat → Term E → Py (Term E)
  | [], _, acc => .ok acc
  | c :: cs, k, acc => do
    let acc ← Term.mul K env (rnd k) acc c
    mathProd K env rnd cs (k + 1) acc

/-- the variables of the loop of `private_compare` -/
structure CompareState (E : Type) where
  c : List (Term E)
  w : Term E
  d : Option (RMPC E)

/-- One round of the loop of `private_compare` at bit `i`, `falcon.py:541-547`.  The code computes `d` in every round. -/
def compareRound (K : RingKit E) (env : Env) (rnd : RoundRand (ι → E)) (xs : List (RMPC (ι → E))) (r : ι → I64)
    (betaP m : RMPC (ι → E)) (i : Nat) (st : CompareState (ι → E)) : Py (CompareState (ι → E)) := do
  let ri := encLong K fun j => (r j).sshiftRight i &&& 1
  let dbl ← RMPC.mulPublic (K.tensor ι) betaP (.int 2) rnd.dbl
  let sgn ← RMPC.rsubPublicTrunc (K.tensor ι) env dbl (.int 1) rnd.one
  let xi ← pyGet xs i
  let dif ← RMPC.linEnc (K.tensor ι).ops env .sub xi ri
  let u ← RMPC.mulPrivate (K.tensor ι) env rnd.u sgn dif
  let u1 ← RMPC.linPublic (K.tensor ι) env .add u (.int 1)
  let ci ← Term.addMpc (K.tensor ι) env u1 st.w
  let x ← RMPC.xorEnc (K.tensor ι) env xi ri
  let w ← Term.add (K.tensor ι) env st.w (.mpc x)
  let c := st.c.set i (.mpc ci)
  let p ← mathProd (K.tensor ι) env rnd.prod c 0 (.int 1)
  let d ← Term.mulMpc (K.tensor ι) env rnd.last m p
  return ⟨c, w, some d⟩

/-- the loop of `private_compare`: the rounds for the bits below `n`, highest first -/
def compareLoop (K : RingKit E) (env : Env) (rnd : Nat → RoundRand (ι → E)) (xs : List (RMPC (ι → E))) (r : ι → I64)
    (betaP m : RMPC (ι → E)) : Nat → CompareState (ι → E) → Py (CompareState (ι → E))
  | 0, st => .ok st
  | i + 1, st => do
    let st ← compareRound K env (rnd i) xs r betaP m i st
    compareLoop K env rnd xs r betaP m i st

/-- `private_compare`, `falcon.py:497-555`; `K` is the prime ring. -/
def privateCompare (K : RingKit E) (env : Env) (rnd : CompareRand E ι) (xs : List (RMPC (ι → E))) (r : ι → I64) :
    Py (RMPC (ι → Bool)) := do
  let x0 ← pyGet xs 0
  let s := x0.session
  let beta2 ← RMPC.random env s 2 rnd.bit
  let betaP ← ABY3.bitInjection (K.tensor ι) (fun t j => K.ofBool (t j)) env rnd.inj1 rnd.inj2 beta2 s
  let m ← randomPrimeGroup K env s rnd.group
  let st ← compareLoop K env rnd.round xs r betaP m xs.length ⟨List.replicate xs.length (.int 0), .int 0, none⟩
  match st.d with
  | none => throw PyErr.unboundLocal
  | some d =>
    let v ← d.reconstruct (K.tensor ι).ops
    RMPC.linEnc (binOps.tensor ι) env .add beta2 (encLong binKit fun j => if K.isZero (v j) then 0 else 1)

end Falcon

end SyMPC
