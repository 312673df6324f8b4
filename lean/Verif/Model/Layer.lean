import Verif.Model.Machine
import Verif.Model.Session
import Mathlib.Algebra.BigOperators.Fin

/-!
# Linear layers and stochastic gradient descent

`src/sympc/module/nn/linear.py`, `src/sympc/optim/sgd.py`
-/

namespace SyMPC

open FixedPointEncoder (Val)

/-! ## Linear -/

/-- the shapes of a matrix product: `(l, m) @ (m, n)` -/
abbrev MatKey := Nat × Nat × Nat

/-- the left operands, the right operands and the results of such products -/
abbrev MatL (k : MatKey) := Fin k.1 × Fin k.2.1 → I64
abbrev MatR (k : MatKey) := Fin k.2.1 × Fin k.2.2 → I64
abbrev MatO (k : MatKey) := Fin k.1 × Fin k.2.2 → I64

/-- `torch.matmul` of integer matrices -/
def matProd (k : MatKey) (a : MatL k) (b : MatR k) : MatO k := fun p => ∑ l, a (p.1, l) * b (l, p.2)

/-- `tensor.t()` -/
def matT {m n : Nat} (a : Fin m × Fin n → I64) : Fin n × Fin m → I64 := fun p => a (p.2, p.1)

/-- how a vector is added to a matrix: to each of its rows -/
def matRows {m n : Nat} (v : Fin n → I64) : Fin m × Fin n → I64 := fun p => v p.2

/-- `res_share.tensor //= scale` of a product of two parties, `spdz.py:171-176` -/
def matTrunc (k : MatKey) (c : Config) (z : MatO k) : MatO k := fun p => floordiv (z p) (BitVec.ofNat 64 (c.encoderBase ^ c.encoderPrecision))

/-- the stores with triples for matrix products -/
abbrev MatWorld := World MatKey MatL MatR MatO

/-- the parameters of a `Linear` layer, `linear.py:19-45` -/
structure LinearLayer (i o : Nat) where
  weight : MPCTensor (Fin o × Fin i → I64)
  bias : Option (MPCTensor (Fin o → I64))

/-- `Linear.forward`, `linear.py:47-61`, for a batch of `b` inputs and two parties.  Simplification: the bias is broadcast
before the addition of the shares and not during it. -/
def LinearLayer.forward (env : Env) (rnd : (k : MatKey) → Nat → TripleRand (MatL k) (MatR k) (MatO k)) {b i o : Nat}
    (layer : LinearLayer i o) (x : MPCTensor (Fin b × Fin i → I64)) (w : MatWorld) :
    Py (MPCTensor (Fin b × Fin o → I64) × MatWorld) := do
  let wt ← MPCTensor.hookMethod matT layer.weight
  let (out, w) ← mulMaster (Kw := Unit) env (fun k _ a b => matProd k a b) matTrunc rnd (b, i, o) () w x wt
  match layer.bias with
  | none => return (out.result, w)
  | some v => do
    let v ← MPCTensor.hookMethod (matRows (m := b)) v
    let res ← MPCTensor.applyPrivateLin (P := Empty) env .add out.result v
    return (res, w)

/-- `Linear.share_state_dict`, `linear.py:77-113`, of a local state dictionary; `draw` are the random shares of weight and bias. -/
def LinearLayer.share (env : Env) (s : Session) {i o : Nat} (weight : Fin o × Fin i → Val) (bias : Option (Fin o → Val))
    (drawW : Nat → Fin o × Fin i → I64) (drawB : Nat → Fin o → I64) : Py (LinearLayer i o) := do
  let weight ← MPCTensor.ofSecret env s weight drawW
  match bias with
  | none => return ⟨weight, none⟩
  | some v => do
    let v ← MPCTensor.ofSecret env s v drawB
    return ⟨weight, some v⟩

/-- `Linear.reconstruct_state_dict`, `linear.py:115-127`, before decoding -/
def LinearLayer.reconstruct {i o : Nat} (layer : LinearLayer i o) : Py ((Fin o × Fin i → I64) × Option (Fin o → I64)) := do
  let weight ← layer.weight.reconstruct
  match layer.bias with
  | none => return (weight, none)
  | some v => do
    let v ← v.reconstruct
    return (weight, some v)

/-! ## SGD -/

variable {Key : Type}

/-- A parameter with its gradient.  Simplification: both have the same number of elements. -/
structure Param where
  n : Nat
  tensor : MX n
  grad : Option (MX n)

/-- `param.isub(grad * lr)`, `sgd.py:27-34`; a missing gradient is `None * lr`. -/
def Param.step (M : Machine Key) (lr : ℚ) (w : MState Key) (p : Param) : Except (PyErr ⊕ Unit) Param :=
  match p.grad with
  | none => .error (.inl .typeError)
  | some g =>
    match M.mulPublic g (fun _ => pubVal lr) w with
    | .error e => .error e
    | .ok (d, _) =>
      match MPCTensor.isub (P := Empty) M.env p.tensor (.inr d) with
      | .error e => .error (.inl e)
      | .ok t => .ok { p with tensor := t }

/-- the loop of `SGD.step`, `sgd.py:26-34`: the parameters afterwards, how many were taken, and how it ended -/
def stepLoop (M : Machine Key) (lr : ℚ) (w : MState Key) : List Param → List Param × Nat × Except (PyErr ⊕ Unit) Unit
  | [] => ([], 0, .ok ())
  | p :: ps =>
    match p.step M lr w with
    | .error e => (p :: ps, 1, .error e)
    | .ok p' =>
      let (ps', k, r) := stepLoop M lr w ps
      (p' :: ps', k + 1, r)

/-- The optimizer, `sgd.py:11-22`.  `taken` is `none` if it was given a list of parameters; if it was given a generator (such as
`Linear.parameters()`, `linear.py:65-74`), it is the number of parameters that this has already yielded. -/
structure Sgd where
  lr : ℚ
  taken : Option Nat

/-- `SGD.step`, `sgd.py:24-35`, with the parameters of the model.  Simplification: `MPCTensor.AUTOGRAD_IS_ON`, which no other code
reads, is left out. -/
def Sgd.step (M : Machine Key) (w : MState Key) (o : Sgd) (ps : List Param) : Sgd × List Param × Except (PyErr ⊕ Unit) Unit :=
  let first := o.taken.getD 0
  let (ps', k, r) := stepLoop M o.lr w (ps.drop first)
  ({ o with taken := o.taken.map (· + k) }, ps.take first ++ ps', r)

/-- `SGD.zero_grad`, `sgd.py:37-40` -/
def Sgd.zeroGrad (o : Sgd) (ps : List Param) : Sgd × List Param :=
  let first := o.taken.getD 0
  ({ o with taken := o.taken.map fun _ => ps.length }, ps.take first ++ (ps.drop first).map fun p => { p with grad := none })

end SyMPC
