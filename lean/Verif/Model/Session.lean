import Verif.Model.Encoder
import Verif.Model.Ring

/-!
# Sessions

`src/sympc/session/session.py`, `session_manager.py`, `session_utils.py`, `src/sympc/protocol/protocol.py`
-/

namespace SyMPC

/-- `share_class` of a protocol: `ShareTensor` or `ReplicatedSharedTensor`. -/
inductive ShareClass where
  | additive | replicated
  deriving DecidableEq, Repr

/-- `security_type` of a protocol (the strings "semi-honest" and "malicious"). -/
inductive Security where
  | semiHonest | malicious
  deriving DecidableEq, Repr

/-- A protocol object: class name, share class and security type
(`src/sympc/protocol/falcon/falcon.py:33-55`, `aby3.py`, `fss.py`). -/
structure Protocol where
  name : String
  shareClass : ShareClass
  security : Security
  deriving DecidableEq, Repr

/-- The session object that lives at one party (`Session`, `session.py:75-96`), restricted to the fields that party
side code reads. -/
structure PartySession where
  uuid : Nat
  rank : Int
  nrParties : Nat
  config : Config
  ringSize : Nat
  tensorType : DType
  protocol : Protocol
  minValue : Int := -2 ^ 63
  maxValue : Int := 2 ^ 63 - 1
  deriving DecidableEq, Repr

/-- The session object of the orchestrator (`session.py:98-178`).  `parties` are client identities;
`rankToUuid` is the dict `rank_to_uuid` as a list indexed by rank; a pointer to a party's session is the session. -/
structure Session where
  uuid : Option Nat
  parties : List Nat
  nrParties : Nat
  protocol : Protocol
  config : Config
  ringSize : Nat
  tensorType : DType
  minValue : Int
  maxValue : Int
  rankToUuid : List Nat
  sessionPtrs : List PartySession
  autogradActive : Bool
  deriving DecidableEq, Repr

/-- The default protocol, `Protocol.registered_protocols["FSS"]()`, `session.py:143-144`. -/
def fssProtocol : Protocol := { name := "FSS", shareClass := .additive, security := .semiHonest }

/-- The choice of the protocol in `Session.__init__`, `session.py:141-149`. -/
def resolveProtocol (registered : List String) : Option Protocol → Py Protocol
  | none => .ok fssProtocol
  | some p => if p.name ∈ registered then .ok p else .error .valueError

/-- `Session.__init__`, `session.py:98-178`.  `registered` is the list of names in
`Protocol.registered_protocols`; `parties = none` and an empty list are told apart as in the code (both give no
parties). -/
def Session.new (registered : List String) (parties : Option (List Nat)) (ringSize : Nat := 2 ^ 64)
    (config : Option Config := none) (protocol : Option Protocol := none) : Py Session := do
  let ps := parties.getD []
  let proto ← resolveProtocol registered protocol
  if ps ≠ [] ∧ ps.length < 3 ∧ proto.security = .malicious then throw PyErr.valueError
  let t ← getTypeFromRing ringSize
  return {
    uuid := none, parties := ps, nrParties := ps.length, protocol := proto,
    config := config.getD {}, ringSize := ringSize, tensorType := t,
    minValue := (-(ringSize : Int)).fdiv 2, maxValue := ((ringSize : Int) - 1).fdiv 2,
    rankToUuid := [], sessionPtrs := [], autogradActive := false }

/-- `Session.copy`, `session.py:333-345`: a fresh default session of which only the number of parties, the
configuration, the protocol and the ring size are overwritten; rank and uuid are set by the caller.  The tensor type
and the value range stay those of the default ring `2**64`. -/
def Session.copy (s : Session) (rank : Int) (uuid : Nat) : PartySession :=
  { uuid := uuid, rank := rank, nrParties := s.nrParties, config := s.config, ringSize := s.ringSize,
    tensorType := .int64, protocol := s.protocol, minValue := (-(2 ^ 64 : Int)).fdiv 2,
    maxValue := ((2 ^ 64 : Int) - 1).fdiv 2 }

/-- `SessionManager.setup_mpc` without the generators, `session_manager.py:36-58`.  `fresh` are the uuids drawn by
`uuid4()`: one per party and one for the session (simplification: given as a function of the draw number). -/
def Session.setupSessions (s : Session) (fresh : Nat → Nat) : Session :=
  let copies := s.parties.zipIdx.map fun (_, r) => s.copy r (fresh r)
  { s with
    sessionPtrs := s.sessionPtrs ++ copies
    uuid := some (fresh s.parties.length)
    rankToUuid := copies.map (·.uuid) }

/-- `CURRENT_SESSION.get`, `session_utils.py:12-21`: the sessions known to the parties by uuid. -/
abbrev Env := Nat → Option PartySession

/-- `set_session`, `session_utils.py:24-31`. -/
def Env.set (env : Env) (p : PartySession) : Env := fun u => if u = p.uuid then some p else env u

/-- The environment after the parties received the sessions of `s` (each calls `set_session`). -/
def Env.register (env : Env) (ps : List PartySession) : Env := ps.foldl Env.set env

end SyMPC
