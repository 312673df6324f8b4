import Verif.Model.Store

/-!
# SPDZ multiplication with Beaver triples

`src/sympc/protocol/spdz/spdz.py`, `src/sympc/protocol/beaver/beaver.py`,
`src/sympc/store/crypto_primitive_provider.py`

`K` is the type of the store's keys (operation and the two shapes, see `configKey`), `Kw` that of the keyword arguments
of the operation (stride, padding, ...).  `A k` and `B k` are the tensors of the two shapes of a key, `C k` those of the
shape of the result.  Simplification: keyword arguments that change the shape of the result are left out, and the
orchestrator's idea of the shapes is that of the shares.
-/

namespace SyMPC

/-- What one party holds of one Beaver triple.  `serial` is not in the code: it numbers the generated triples, so that
their use can be traced. -/
structure Triple (A B C : Type) where
  serial : Nat
  a : ShareTensor A
  b : ShareTensor B
  c : ShareTensor C

/-- The randomness of one run of `_get_triples`, `beaver.py:80-103`. -/
structure TripleRand (A B C : Type) where
  a : A
  b : B
  da : Nat → A
  db : Nat → B
  dc : Nat → C

/-- `_get_triples` for additive shares, `beaver.py:73-103, 144-165`: for each party the list of its instances (always one).
Simplification: encoding with `Config(encoder_precision=0)` leaves the tensor unchanged and is left out. -/
def getTriples {A B C : Type} [Sub A] [Sub B] [Sub C] (env : Env) (op : A → B → C) (nrParties : Nat) (serial : Nat)
    (rnd : TripleRand A B C) : Py (List (List (Triple A B C))) := do
  let config : Config := { encoderPrecision := 0 }
  let as ← generateShares env ⟨rnd.a, none, config, 2 ^ 64⟩ nrParties rnd.da
  let bs ← generateShares env ⟨rnd.b, none, config, 2 ^ 64⟩ nrParties rnd.db
  let cs ← generateShares env ⟨op rnd.a rnd.b, none, config, 2 ^ 64⟩ nrParties rnd.dc
  return (as.zip (bs.zip cs)).map fun (a, b, c) => [⟨serial, a, b, c⟩]

/-- the tag put on the shares of a primitive, `crypto_primitive_provider.py:54-61` -/
def Triple.tag {A B C : Type} (u : Nat) (t : Triple A B C) : Triple A B C :=
  { t with
    a := { t.a with sessionUuid := some u }
    b := { t.b with sessionUuid := some u }
    c := { t.c with sessionUuid := some u } }

/-- The zip of `crypto_primitive_provider.py:54-61`: primitives beyond the shorter list keep their tags. -/
def tagAll {A B C : Type} : List Nat → List (List (Triple A B C)) → List (List (Triple A B C))
  | u :: us, p :: ps => p.map (Triple.tag u) :: tagAll us ps
  | _, ps => ps

variable {K Kw : Type} [DecidableEq K] {A B C : K → Type}

/-- The crypto stores of all parties, by the uuid of the party's session, and the number of triples generated so far. -/
structure World (K : Type) (A B C : K → Type) where
  stores : Nat → Store K fun k => Triple (A k) (B k) (C k)
  serial : Nat

/-- no primitives anywhere -/
def World.empty : World K A B C := ⟨fun _ => Store.empty, 0⟩

/-- `populate_store` at one party, `crypto_store.py:28-44` -/
def World.populate (w : World K A B C) (u : Nat) (k : K) (l : List (Triple (A k) (B k) (C k))) : World K A B C :=
  { w with stores := fun v => if v = u then (w.stores v).add k l else w.stores v }

/-- `_transfer_primitives_to_parties`, `crypto_primitive_provider.py:78-95`. -/
def transferPrimitives (w : World K A B C) (k : K) (ps : List (List (Triple (A k) (B k) (C k))))
    (sessions : List PartySession) : Py (World K A B C) :=
  if ps.length ≠ sessions.length then .error .valueError
  else .ok ((ps.zip sessions).foldl (fun w (p, s) => w.populate s.uuid k p) w)

/-- `CryptoPrimitiveProvider.generate_primitives` for a Beaver triple, `crypto_primitive_provider.py:26-75`. -/
def generatePrimitives [∀ k, Sub (A k)] [∀ k, Sub (B k)] [∀ k, Sub (C k)] (env : Env) (s : Session)
    (op : (k : K) → Kw → A k → B k → C k) (rnd : (k : K) → Nat → TripleRand (A k) (B k) (C k)) (k : K) (kw : Kw)
    (w : World K A B C) : Py (World K A B C) := do
  let ps ← getTriples env (op k kw) s.nrParties w.serial (rnd k w.serial)
  transferPrimitives { w with serial := w.serial + 1 } k (tagAll s.rankToUuid ps) s.sessionPtrs

/-- `spdz_mask`, `spdz.py:99-122`.  The third component is the number of the triple used. -/
def spdzMask [∀ k, Sub (A k)] [∀ k, Sub (B k)] (env : Env) (w : World K A B C) (k : K) (x : ShareTensor (A k))
    (y : ShareTensor (B k)) : Py (ShareTensor (A k) × ShareTensor (B k) × Nat) := do
  let u ← (match x.sessionUuid with | some u => .ok u | none => .error .attributeError : Py Nat)
  let _ ← (match env u with | some p => .ok p | none => .error .attributeError : Py PartySession)
  let (t, _) ← (w.stores u).get k false
  let eps ← ShareTensor.sub (P := Empty) env x (.inr t.a)
  let delta ← ShareTensor.sub (P := Empty) env y (.inr t.b)
  return (eps, delta, t.serial)

/-- The first use of `parallel_execution` in `mul_master`, `spdz.py:60-63`, with `src/sympc/utils/utils.py:97-124`. -/
def maskAll [∀ k, Sub (A k)] [∀ k, Sub (B k)] (env : Env) (w : World K A B C) (k : K) (x : MPCTensor (A k))
    (y : MPCTensor (B k)) : Py (List (ShareTensor (A k) × ShareTensor (B k) × Nat)) :=
  let args := x.shares.zip y.shares
  if args.isEmpty then .error .valueError
  else if x.session.parties.length < args.length then .error .indexError
  else args.mapM fun (a, b) => spdzMask env w k a b

/-- The mask step with generation on demand, `spdz.py:62-77`. -/
def maskOrGenerate [∀ k, Sub (A k)] [∀ k, Sub (B k)] [∀ k, Sub (C k)] (env : Env)
    (op : (k : K) → Kw → A k → B k → C k) (rnd : (k : K) → Nat → TripleRand (A k) (B k) (C k)) (k : K) (kw : Kw)
    (w : World K A B C) (x : MPCTensor (A k)) (y : MPCTensor (B k)) :
    Py (List (ShareTensor (A k) × ShareTensor (B k) × Nat) × World K A B C) :=
  match maskAll env w k x y with
  | .ok m => .ok (m, w)
  | .error .emptyStore => do
    let w' ← generatePrimitives env x.session op rnd k kw w
    let m ← maskAll env w' k x y
    return (m, w')
  | .error e => .error e

/-- `mul_parties`, `spdz.py:125-178`, for the product `op` (keyword arguments applied).  `trunc` is `//= scale`.
Returns also the number of the triple used. -/
def mulParties [∀ k, Add (C k)] (env : Env) (k : K) (op : A k → B k → C k) (trunc : Config → C k → C k) (u : Nat)
    (eps : A k) (delta : B k) (w : World K A B C) : Py ((ShareTensor (C k) × Nat) × World K A B C) := do
  let p ← (match env u with | some p => .ok p | none => .error .attributeError : Py PartySession)
  let (t, st) ← (w.stores u).get k true
  let w := { w with stores := fun v => if v = u then st else w.stores v }
  let z := t.c.tensor + op eps t.b.tensor + op t.a.tensor delta
  let z := if p.rank = 0 then z + op eps delta else z
  let z := if p.nrParties = 2 then trunc p.config z else z
  return ((⟨z, some u, p.config, 2 ^ 64⟩, t.serial), w)

/-- The second use of `parallel_execution` in `mul_master`, `spdz.py:87-92`: every party in turn (each touches only its own
store). -/
def mulAll [∀ k, Add (C k)] (env : Env) (k : K) (op : A k → B k → C k) (trunc : Config → C k → C k) (eps : A k)
    (delta : B k) : List Nat → World K A B C → Py (List (ShareTensor (C k) × Nat) × World K A B C)
  | [], w => .ok ([], w)
  | u :: us, w => do
    let (z, w) ← mulParties env k op trunc u eps delta w
    let (zs, w) ← mulAll env k op trunc eps delta us w
    return (z :: zs, w)

/-- What a call of `mul_master` leaves behind: the result, the values opened, and (not in the code) the numbers of the
triples used in the two steps, one per party. -/
structure MulOut (A B C : Type) where
  result : MPCTensor C
  eps : A
  delta : B
  maskIds : List Nat
  mulIds : List Nat

/-- `mul_master`, `spdz.py:36-96`. -/
def mulMaster [∀ k, AddCommGroup (A k)] [∀ k, AddCommGroup (B k)] [∀ k, AddCommGroup (C k)] (env : Env)
    (op : (k : K) → Kw → A k → B k → C k) (trunc : (k : K) → Config → C k → C k)
    (rnd : (k : K) → Nat → TripleRand (A k) (B k) (C k)) (k : K) (kw : Kw)
    (w : World K A B C) (x : MPCTensor (A k)) (y : MPCTensor (B k)) :
    Py (MulOut (A k) (B k) (C k) × World K A B C) := do
  let (masks, w) ← maskOrGenerate env op rnd k kw w x y
  let local_ ← (List.range x.session.nrParties).mapM (pyGet masks)
  let eps ← ShareTensor.reconstruct (local_.map (·.1))
  let delta ← ShareTensor.reconstruct (local_.map (·.2.1))
  let (zs, w) ← mulAll env k (op k kw) (trunc k) eps delta x.session.rankToUuid w
  let result ← MPCTensor.ofShares x.session (zs.map (·.1))
  return (⟨result, eps, delta, local_.map (·.2.2), zs.map (·.2)⟩, w)

end SyMPC
