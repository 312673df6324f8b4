import Verif.Model.Py
import Mathlib.Logic.Function.Basic

/-!
# The computation graph and backpropagation

`src/sympc/grads/grad_functions.py:766-795` (`forward`), `src/sympc/tensor/mpc_tensor.py:895-973` (`__getattribute__`,
`backward`).

`V` is the type of tensors, `add` their sum.  Tensors are numbered in the order of their creation.  A tensor of the graph is
kept with the attributes that autograd uses; what a `grad_fn` computes from its saved context and a gradient is a function
on tensors (`Model/Grad.lean`).
-/

namespace SyMPC.Autograd

/-- The attributes of an `MPCTensor` used for training, `mpc_tensor.py:171-178`. -/
structure Node (V : Type) where
  shape : List Nat
  parents : List Nat
  requiresGrad : Bool
  nrOutEdges : Int
  grad : Option V
  /-- `grad_fn.backward` with the context of the node; the answer is the tuple of gradients -/
  gradFn : Option (V → Py (List V))

/-- All tensors created in a session, and the flag `session.autograd_active`. -/
structure Graph (V : Type) where
  node : Nat → Node V
  size : Nat
  active : Bool

variable {V : Type}

namespace Graph

/-- a session with autograd switched on and no tensors -/
def empty : Graph V := ⟨fun _ => ⟨[], [], false, 0, none, none⟩, 0, true⟩

/-- Changing one tensor. -/
def modify (G : Graph V) (i : Nat) (f : Node V → Node V) : Graph V := { G with node := Function.update G.node i (f (G.node i)) }

/-- A new tensor: `MPCTensor(..., requires_grad=req)`, `mpc_tensor.py:171-178`. -/
def leaf (G : Graph V) (shape : List Nat) (req : Bool) : Graph V :=
  { G with node := Function.update G.node G.size ⟨shape, [], req, 0, none, none⟩, size := G.size + 1 }

/-- `forward`, `grad_functions.py:766-795`, called through `__getattribute__` (`mpc_tensor.py:910-917`) when the flag is on:
`parents` are the tensor and the other secret arguments, `res` the result of `grad_fn.forward`: its shape and what
`grad_fn.backward` will do.  If that raises, the flag stays off.  When the flag is off the operation is done without a record. -/
def forward (G : Graph V) (parents : List Nat) (res : Py (List Nat × (V → Py (List V)))) : Py Unit × Graph V :=
  if G.active then
    match res with
    | .error e => (.error e, { G with active := false })
    | .ok (shape, fn) =>
      let res : Node V := ⟨shape, parents, parents.any fun p => (G.node p).requiresGrad, 0, none, some fn⟩
      let G := { G with node := Function.update G.node G.size res, size := G.size + 1 }
      (.ok (), parents.foldl (fun G p => G.modify p fun n => { n with nrOutEdges := n.nrOutEdges + 1 }) G)
  else
    match res with
    | .error e => (.error e, G)
    | .ok (shape, _) => (.ok (), G.leaf shape false)

section
variable (add : V → V → V)

/-- the sum of the gradients received so far, `mpc_tensor.py:948-951` -/
def accumulate : Option V → V → V
  | none, gradient => gradient
  | some a, gradient => add a gradient

/-- The loop over the parents, `mpc_tensor.py:970-971`: `back` is the recursive call. -/
def backwardAll (back : Nat → V → Graph V → Py Unit × Graph V) : List Nat → List V → Graph V → Py Unit × Graph V
  | [], _, G => (.ok (), G)
  | _ :: _, [], G => (.error .indexError, G)
  | p :: ps, g :: gs, G =>
    match back p g G with
    | (.error e, G) => (.error e, G)
    | (.ok (), G) => backwardAll back ps gs G

/-- `backward` with a gradient, `mpc_tensor.py:928-973`.  The first argument bounds the depth of the recursion (Python raises
`RecursionError`, a `RuntimeError`). -/
def backward : Nat → Nat → V → Graph V → Py Unit × Graph V
  | 0, _, _, G => (.error .runtimeError, G)
  | depth + 1, i, gradient, G =>
    let n := G.node i
    if n.requiresGrad = false then (.ok (), G)
    else
      let grad := accumulate add n.grad gradient
      let G := { G with active := false }.modify i fun n => { n with grad := some grad }
      if n.parents.length = 0 then (.ok (), G)
      else
        let G := G.modify i fun n => { n with nrOutEdges := n.nrOutEdges - 1 }
        if n.nrOutEdges - 1 > 0 then (.ok (), G)
        else
          match n.gradFn with
          | none => (.error .valueError, G)
          | some fn =>
            match fn grad with
            | .error e => (.error e, G)
            | .ok gs =>
              match backwardAll (backward depth) n.parents gs G with
              | (.error e, G) => (.error e, G)
              | (.ok (), G) => (.ok (), { G with active := true })

/-- `loss.backward()`, `mpc_tensor.py:928-973` without a gradient: only for tensors of dimension 0 or 1; the gradient is a
tensor of ones. -/
def backwardLoss (ones : List Nat → V) (depth i : Nat) (G : Graph V) : Py Unit × Graph V :=
  if (G.node i).requiresGrad = false then (.ok (), G)
  else if (G.node i).shape.length ≠ 0 ∧ (G.node i).shape.length ≠ 1 then (.error .valueError, { G with active := false })
  else backward add depth i (ones (G.node i).shape) G

end

end Graph

/-- What a program does: create a tensor, apply a recorded operation, or apply an operation that is not in `GRAD_FUNCS` (its
result is a new tensor without a record, `mpc_tensor.py:910-926`). -/
inductive Cmd (V : Type) where
  | leaf (shape : List Nat) (req : Bool)
  | op (parents : List Nat) (shape : List Nat) (fn : V → Py (List V))
  | plain (shape : List Nat)

/-- Running a program. -/
def Graph.run : List (Cmd V) → Graph V → Graph V
  | [], G => G
  | .leaf s r :: cs, G => Graph.run cs (G.leaf s r)
  | .op ps s fn :: cs, G => Graph.run cs (G.forward ps (.ok (s, fn))).2
  | .plain s :: cs, G => Graph.run cs (G.leaf s false)

end SyMPC.Autograd
