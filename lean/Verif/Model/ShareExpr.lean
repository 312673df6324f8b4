import Verif.Model.Share

/-!
# Expressions of additive shares

What a party computes with its own shares, `src/sympc/tensor/share_tensor.py`, as nested calls of the operations in `Share`.
-/

namespace SyMPC

/-- a nested call of operations on shares; `P` are the public operands.  Simplification: all tensors have the type `T`. -/
inductive ShareExpr (P T : Type) where
  | input (x : ShareTensor T)
  | add (a b : ShareExpr P T)
  | sub (a b : ShareExpr P T)
  | prod (op : T → T → T) (trunc : T → T) (a b : ShareExpr P T)
  | addPublic (a : ShareExpr P T) (y : P)
  | subPublic (a : ShareExpr P T) (y : P)
  | rsubPublic (a : ShareExpr P T) (y : P)
  | prodPublic (op : T → T → T) (trunc : T → T) (a : ShareExpr P T) (y : P)
  | div (dv : T → T) (a : ShareExpr P T)
  | method (f : T → T) (a : ShareExpr P T)

/-- the calls in the order of Python, `share_tensor.py:181-337, 434-487`: operands first, from left to right -/
def ShareExpr.eval {P T : Type} [Add T] [Sub T] [PubEnc P T] (env : Env) : ShareExpr P T → Py (ShareTensor T)
  | .input x => .ok x
  | .add a b => do
    let x ← a.eval env
    let y ← b.eval env
    ShareTensor.add (P := P) env x (.inr y)
  | .sub a b => do
    let x ← a.eval env
    let y ← b.eval env
    ShareTensor.sub (P := P) env x (.inr y)
  | .prod op trunc a b => do
    let x ← a.eval env
    let y ← b.eval env
    ShareTensor.prod (P := P) env op trunc x (.inr y)
  | .addPublic a y => do
    let x ← a.eval env
    ShareTensor.add env x (.inl y)
  | .subPublic a y => do
    let x ← a.eval env
    ShareTensor.sub env x (.inl y)
  | .rsubPublic a y => do
    let x ← a.eval env
    ShareTensor.rsub env x (.inl y)
  | .prodPublic op trunc a y => do
    let x ← a.eval env
    ShareTensor.prod env op trunc x (.inl y)
  | .div dv a => do
    let x ← a.eval env
    return x.div dv
  | .method f a => do
    let x ← a.eval env
    return x.hookMethod f

end SyMPC
