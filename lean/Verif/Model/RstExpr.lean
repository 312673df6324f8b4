import Verif.Model.Rst

/-!
# Expressions of replicated shares

What a party computes with its own shares, `src/sympc/tensor/replicatedshare_tensor.py`, as nested calls of the operations in `Rst`.
-/

namespace SyMPC

/-- a nested call of operations on the replicated shares of one party.  Simplification: public operands are encoded already; they are
encoded with the configuration of the share, which all shares of the expression have. -/
inductive RstExpr (E : Type) where
  | input (x : RST E)
  | lin (op : MPCTensor.LinOp) (a b : RstExpr E)
  | linPublic (op : MPCTensor.LinOp) (a : RstExpr E) (y : E)
  | rsubPublic (a : RstExpr E) (y : E)
  | mulPublic (a : RstExpr E) (y : E)
  | xorPublic (a : RstExpr E) (y two : E)
  | method (f : E → E) (a : RstExpr E)

/-- the calls in the order of Python, `replicatedshare_tensor.py:321-492, 626-645, 1025-1040` -/
def RstExpr.eval {E : Type} (I : RingOps E) (env : Env) : RstExpr E → Py (RST E)
  | .input x => .ok x
  | .lin op a b => do
    let x ← a.eval I env
    let y ← b.eval I env
    RST.privateOp I op x y
  | .linPublic op a y => do
    let x ← a.eval I env
    RST.publicOp I env op x y
  | .rsubPublic a y => do
    let x ← a.eval I env
    RST.rsubPublic I env x y
  | .mulPublic a y => do
    let x ← a.eval I env
    return RST.publicMul I x y
  | .xorPublic a y two => do
    let x ← a.eval I env
    RST.publicXor I env x y two
  | .method f a => do
    let x ← a.eval I env
    return x.hookMethod f

end SyMPC
