import Verif.Spec.Share
import Verif.Spec.Ring
import Verif.Model.Rst

/-!
# What a replicated sharing is
-/

namespace SyMPC

variable {E : Type}

/-- The shares party `r` of `n` holds of the `n` shares `s 0, ..., s (n-1)`: all but share `r - 1`, starting with
share `r`. -/
def held (n : Nat) (s : Nat → E) (r : Nat) : List E := (List.range (n - 1)).map fun k => s ((r + k) % n)

/-- The parties' sessions know their rank and the number of parties. -/
def Session.Ranked (env : Env) (s : Session) : Prop :=
  ∀ (r : Nat) u, s.rankToUuid[r]? = some u → ∃ p, env u = some p ∧ p.rank = r ∧ p.nrParties = s.nrParties

/-- The secret tensor `x` of a ready session is a consistent replicated sharing by the shares `s`. -/
structure RMPC.Sharing (env : Env) {I : RingOps E} {R : Type} [CommRing R] (S : RingSem I R) (x : RMPC E) (s : Nat → E) :
    Prop where
  ready : x.session.Ready env
  ranked : x.session.Ranked env
  secure : x.session.protocol.security = .malicious → 3 ≤ x.session.nrParties
  valid : ∀ i < x.session.nrParties, S.Valid (s i)
  shares : x.shares = (List.range x.session.nrParties).map fun r =>
    RST.new (held x.session.nrParties s r) x.session.rankToUuid[r]? x.session.config x.session.ringSize

/-- The value shared by `n` shares. -/
def total {I : RingOps E} {R : Type} [CommRing R] (S : RingSem I R) (n : Nat) (s : Nat → E) : R :=
  ((List.range n).map fun i => S.den (s i)).sum

end SyMPC
