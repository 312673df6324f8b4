import Verif.Model.Fss

/-!
# What a comparison shows

`src/sympc/protocol/fss/fss.py:118-180`
-/

namespace SyMPC

variable {Key : Type} {n : Nat}

/-- What the caller of `fss_op` holds before the reduction modulo `2^32`: `mask_value.reconstruct(decode=False)`, `fss.py:158-165`. -/
def fssOpenedSum (S : Sycret Key) (env : Env) (op : FssOp) (keys : List (Key × Key)) (x1 x2 : MPCTensor (Fin n → I64))
    (w : FssWorld Key) : Py (Fin n → I64) := do
  let w ← fssGenerate x1.session op keys w
  let masks ← maskAllFss S env w op x1 x2
  let x ← MPCTensor.ofShares x1.session (masks.map (·.1))
  x.reconstruct

/-- What party `b` gets in `fss_op` that depends on the other party: the argument `x_masked` of `evaluate`, `fss.py:168-172`; with it the
party's own mask, the first bytes of its keys (`fss.py:70-71`). -/
def FssOut.view (S : Sycret Key) (b : Nat) (out : FssOut Key n) : (Fin n → I64) × (Fin n → I64) :=
  (alphaShare S (out.maskKeys.getD b []), out.opened)

end SyMPC
