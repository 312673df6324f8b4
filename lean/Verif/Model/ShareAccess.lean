import Verif.Model.Share
import Verif.Model.RstAccess

/-!
# Making and reading additive shares

`src/sympc/tensor/share_tensor.py`.  Simplification as in `RstAccess`: a tensor is the list of its elements, each stored in 64 bits whatever
the torch type is.
-/

namespace SyMPC

namespace ShareTensor

/-- `ShareTensor(data=..., config=..., session_uuid=..., ring_size=...)`, `share_tensor.py:102-130`: data is encoded and stored in the type of
the ring; without data there is no tensor and the ring is not looked at. -/
def init (data : Option (List FixedPointEncoder.Val)) (config : Config) (sessionUuid : Option Nat) (ringSize : Nat) :
    Py (ShareTensor (Option (List I64))) :=
  match data with
  | none => return { tensor := none, sessionUuid := sessionUuid, config := config, ringSize := ringSize }
  | some data => do
    let tensorType ← getTypeFromRing ringSize
    return { tensor := some (data.map fun v => tensorType.store (config.encoder.encode v)), sessionUuid := sessionUuid, config := config,
             ringSize := ringSize }

/-- `decode` and `_decode`, `share_tensor.py:135-144`; `None` has no method `type` -/
def decode (x : ShareTensor (Option (List I64))) : Py (List ℚ) :=
  match x.tensor with
  | none => .error .attributeError
  | some tensor => tensor.mapM fun t => x.config.encoder.decode (.long t)

end ShareTensor

end SyMPC
