import Verif.Model.Share

/-!
# Pseudo-random generators of the parties, `setup_mpc`, secrets of a remote party

`src/sympc/session/session.py`, `src/sympc/session/session_manager.py`, `src/sympc/tensor/mpc_tensor.py`
-/

namespace SyMPC

/-- A deterministic generator (`csprng.create_mt19937_generator`, `session.py:25-38`): `init` from a seed, `next`
draws the raw data of one tensor for a request (shape, ring, `max_val`). -/
structure Gen (Seed St Req Raw : Type) where
  init : Seed → St
  next : St → Req → Raw × St

variable {Seed St Req Raw : Type}

/-- `Session.init_generators`, `session.py:305-314`: the pair `przs_generators`. -/
def initGenerators (G : Gen Seed St Req Raw) (seedCurrent seedNext : Seed) : St × St :=
  (G.init seedCurrent, G.init seedNext)

/-- `SessionManager._setup_przs`, `session_manager.py:61-92`, for `ptrs` remote sessions and the seeds drawn (one per
party). -/
def setupPrzs (G : Gen Seed St Req Raw) (seeds : List Seed) (nrParties ptrs : Nat) : Py (List (St × St)) :=
  (List.range ptrs).mapM fun rank => do
    let nextRank := (rank + 1) % nrParties
    let a ← pyGet seeds rank
    let b ← pyGet seeds nextRank
    return initGenerators G a b

/-- `SessionManager.setup_mpc`, `session_manager.py:36-59`: the session is changed even if the last step raises. -/
def setupMpc (G : Gen Seed St Req Raw) (s : Session) (fresh : Nat → Nat) (seed : Nat → Seed) :
    Session × Py (List (St × St)) :=
  let s' := s.setupSessions fresh
  (s', setupPrzs G ((List.range s'.nrParties).map seed) s'.nrParties s'.sessionPtrs.length)

/-- `Session._generate_random_share`, `session.py:188-217`: both generators of one party are asked for the request. -/
def generateRandomShare (G : Gen Seed St Req Raw) (st : St × St) (q : Req) : (Raw × Raw) × (St × St) :=
  let (r1, s1) := G.next st.1 q
  let (r2, s2) := G.next st.2 q
  ((r1, r2), (s1, s2))

/-- Requests reach the parties in some order: `(rank, request)`.  Collected are the raw values each call draws. -/
def serve (G : Gen Seed St Req Raw) : List (St × St) → List (Nat × Req) → Py (List (Nat × Raw × Raw))
  | _, [] => .ok []
  | sts, (r, q) :: es => do
    let st ← pyGet sts r
    let (out, st') := generateRandomShare G st q
    let rest ← serve G (sts.set r st') es
    return (r, out) :: rest

/-- `przs_generate_random_share` for additive shares, `session.py:242-249` (the configuration has precision 0, so the
value is not scaled): `current_share - next_share`. -/
def przsAdditive {T : Type} [Sub T] (toT : Raw → T) (p : Raw × Raw) : T := toT p.1 - toT p.2

/-- `przs_generate_random_share` for replicated shares, `session.py:250-258`: one share, `get_op(ring_size, "sub")`. -/
def przsReplicated {E : Type} (I : RingOps E) (toE : Raw → E) (p : Raw × Raw) : List E := [I.sub (toE p.1) (toE p.2)]

/-- `prrs_generate_random_share` for replicated shares, `session.py:296-301`. -/
def prrsReplicated {E : Type} (toE : Raw → E) (p : Raw × Raw) : List E := [toE p.1, toE p.2]

/-- The loop of `MPCTensor.__init__` for a remote secret, `mpc_tensor.py:176-182`: the first share whose client is
the holder of the secret gets the secret added (`share + secret` at the holder), then the loop stops. -/
def addRemote {P T : Type} [Add T] [PubEnc P T] (env : Env) (holder : Nat) (secret : P) :
    List (Nat × ShareTensor T) → Py (List (ShareTensor T))
  | [] => .ok []
  | (c, sh) :: rest =>
    if c = holder then do
      let sh' ← ShareTensor.add env sh (.inl secret)
      return sh' :: rest.map (·.2)
    else do
      let rest' ← addRemote env holder secret rest
      return sh :: rest'

/-- `MPCTensor(secret=<pointer at holder>, shape=...)` with additive shares, `mpc_tensor.py:161-199, 255-278`, given
the zero shares the parties drew (`shape` is given; without it the call is a `ValueError`, lines 235-240).  The
zero share of rank `r` is at client `parties[r]` and belongs to the session of that rank. -/
def ofRemote {P T : Type} [Add T] [PubEnc P T] (env : Env) (s : Session) (holder : Nat) (secret : P)
    (shapeGiven : Bool) (zeros : List T) : Py (MPCTensor T) := do
  if s.sessionPtrs.length = 0 then throw PyErr.valueError
  if !shapeGiven then throw PyErr.valueError
  let shares : List (Nat × ShareTensor T) := (s.parties.zip (s.rankToUuid.zip zeros)).map fun (c, u, z) =>
    (c, { tensor := z, sessionUuid := some u, config := { encoderPrecision := 0 }, ringSize := s.ringSize })
  let shares ← addRemote env holder secret shares
  MPCTensor.ofShares s shares

end SyMPC
