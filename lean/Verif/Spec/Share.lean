import Verif.Model.Share
import Mathlib.Algebra.Group.Basic

/-!
# What a user may assume of sessions and secret tensors
-/

namespace SyMPC

/-- A session is ready for use: there are at least two parties, each has a session that is known under the uuid the
orchestrator has for that rank and carries the session's configuration and ring. -/
structure Session.Ready (env : Env) (s : Session) : Prop where
  ptrs : s.sessionPtrs ≠ []
  two : 2 ≤ s.nrParties
  parties : s.parties.length = s.nrParties
  ranks : s.rankToUuid.length = s.nrParties
  ring : ∃ t, getTypeFromRing s.ringSize = .ok t
  known : ∀ u ∈ s.rankToUuid, ∃ p, env u = some p ∧ p.config = s.config ∧ p.ringSize = s.ringSize

/-- A secret tensor of a ready session: one share per party, tagged with that party's session. -/
structure MPCTensor.WF {T : Type} (env : Env) (x : MPCTensor T) : Prop where
  ready : x.session.Ready env
  tags : x.shares.map (·.sessionUuid) = x.session.rankToUuid.map some

/-- The mathematical meaning of the two linear operations. -/
def LinOp.den {T : Type} [Add T] [Sub T] : MPCTensor.LinOp → T → T → T
  | .add, a, b => a + b
  | .sub, a, b => a - b

/-- Programs built from secrets, public values, additions and subtractions. -/
inductive LinExpr (P T : Type) where
  /-- share a secret with the given random draws -/
  | secret (v : P) (draws : Nat → T)
  | priv (op : MPCTensor.LinOp) (a b : LinExpr P T)
  | pub (op : MPCTensor.LinOp) (a : LinExpr P T) (v : P)

/-- Running a program on secret tensors. -/
def LinExpr.run {P T : Type} [Add T] [Sub T] [PubEnc P T] (env : Env) (s : Session) : LinExpr P T → Py (MPCTensor T)
  | .secret v draws => MPCTensor.ofSecret env s v draws
  | .priv op a b => do
    let x ← a.run env s
    let y ← b.run env s
    MPCTensor.applyPrivateLin (P := P) env op x y
  | .pub op a v => do
    let x ← a.run env s
    MPCTensor.applyPublicLin env op x v

/-- The plain meaning of a program over encoded values. -/
def LinExpr.den {P T : Type} [Add T] [Sub T] [PubEnc P T] (c : Config) : LinExpr P T → T
  | .secret v _ => PubEnc.enc c v
  | .priv op a b => SyMPC.LinOp.den op (a.den c) (b.den c)
  | .pub op a v => SyMPC.LinOp.den op (a.den c) (PubEnc.enc c v)

end SyMPC
