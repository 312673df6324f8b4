import Verif.Model.Rst

/-!
# `MPCTensor.get_shares`

`src/sympc/tensor/mpc_tensor.py:397-404`: `reconstruct(get_shares=True)`.  What is returned is made by `reconstruct` of the class of the
shares, and is not decoded (`mpc_tensor.py:382-384`).
-/

namespace SyMPC

/-- what `get_shares` returns: a list of tensors, or a list of lists of tensors -/
inductive Got (E : Type) where
  | flat (l : List E)
  | nested (l : List (List E))
  deriving DecidableEq, Repr

/-- `ShareTensor.reconstruct(..., get_shares=True)`, `share_tensor.py:491-536`.  With no shares the thread pool refuses zero workers
(`ValueError`, `src/sympc/utils/utils.py:80-86`). -/
def ShareTensor.getShares {T : Type} (shares : List (ShareTensor T)) : Py (Got T) :=
  if shares = [] then .error .valueError else .ok (.flat (shares.map (·.tensor)))

/-- `MPCTensor.get_shares`, `mpc_tensor.py:376-384, 397-404`, for additive shares -/
def MPCTensor.getShares {T : Type} (x : MPCTensor T) : Py (Got T) := ShareTensor.getShares x.shares

namespace RST

variable {E : Type}

/-- `__reconstruct_semi_honest(..., get_shares=True)`, `replicatedshare_tensor.py:763-786` -/
def getSharesSemiHonest (ps : List (RST E)) : Py (Got E) := do
  let p0 ← pyGet ps 0
  let s0 ← pyGet p0.shares 0
  let p1 ← pyGet ps 1
  return .flat (s0 :: p1.shares)

/-- `__reconstruct_malicious(..., get_shares=True)`, `replicatedshare_tensor.py:792-836`: the openings are compared before the shares are
returned. -/
def getSharesMalicious [DecidableEq E] (I : RingOps E) (ps : List (RST E)) : Py (Got E) := do
  let _ ← openLoop I ps (List.range ps.length) none
  return .nested (ps.map (·.shares))

/-- `reconstruct(..., get_shares=True)`, `replicatedshare_tensor.py:840-872` -/
def getShares [DecidableEq E] (I : RingOps E) (ps : List (RST E)) (sec : Security) : Py (Got E) :=
  if ps = [] then .error .valueError
  else match sec with
    | .malicious => getSharesMalicious I ps
    | .semiHonest => getSharesSemiHonest ps

end RST

/-- `MPCTensor.get_shares`, `mpc_tensor.py:376-384, 397-404`, for replicated shares -/
def RMPC.getShares {E : Type} [DecidableEq E] (I : RingOps E) (x : RMPC E) : Py (Got E) :=
  RST.getShares I x.shares x.session.protocol.security

end SyMPC
