import Verif.Model.Grad

/-!
# Training loops

`src/sympc/optim/sgd.py` with the graph of `Model/Autograd.lean`.  A training loop computes a loss, calls `loss.backward()`, `optimizer.step()` and
`optimizer.zero_grad()`, and again; the tensors of earlier rounds stay in the session.
-/

namespace SyMPC.Grad

open Autograd

variable {R : Type}

/-- the same operation on other tensors -/
def Op.rename (f : Nat → Nat) : Op R → Op R
  | .t x => .t (f x)
  | .add x y => .add (f x) (f y)
  | .addPub x y => .addPub (f x) y
  | .sub x y => .sub (f x) (f y)
  | .subPub x y => .subPub (f x) y
  | .mul x y => .mul (f x) (f y)
  | .mulPub x y => .mulPub (f x) y
  | .sum x => .sum (f x)
  | .pow x n => .pow (f x) n
  | .div x y => .div (f x) (f y)
  | .divPub x y => .divPub (f x) y
  | .matmul x y => .matmul (f x) (f y)
  | .matmulPub x y => .matmulPub (f x) y
  | .reshape x s => .reshape (f x) s
  | .flatten x => .flatten (f x)
  | .sigmoid x => .sigmoid (f x)
  | .relu x => .relu (f x)
  | .conv2d x w a => .conv2d (f x) (f w) a
  | .conv2dBias x w b a => .conv2dBias (f x) (f w) (f b) a
  | .conv2dLayer x w b a => .conv2dLayer (f x) (f w) (b.map f) a
  | .maxPool2d x q s => .maxPool2d (f x) q s

def Step.rename (f : Nat → Nat) : Step R → Step R
  | .leaf req => .leaf req
  | .op o => .op (o.rename f)
  | .untracked o => .untracked (o.rename f)

/-- One round of a training loop: how the loss is computed.  In `prog` the tensors below the number of parameters are the parameters, the
following ones are those that `prog` creates; `data` are the values of its new tensors, `loss` is the number of the loss. -/
structure Round (R : Type) where
  prog : List (Step R)
  data : Nat → Tensor R
  loss : Nat

/-- the number in the session of tensor number `i` of a round that begins with `base` tensors in the session, `p` of which are parameters -/
def place (p base i : Nat) : Nat := if i < p then i else base + (i - p)

section
variable [Field R] [LinearOrder R] (sig : R → R)

/-- the forward part of a round -/
def computeLoss (p : Nat) (rd : Round R) (S : State R) : Py (State R) :=
  (rd.prog.map (Step.rename (place p S.graph.size))).foldlM (step sig fun i => rd.data (i - S.graph.size + p)) S

/-- `SGD.step`, `sgd.py:24-35`: `param.isub(param.grad * lr)`; without a gradient this is `None * lr`.  `isub` is not recorded
(`mpc_tensor.py:417-428` calls `__apply_op`).  Simplifications: the record of `param.grad * lr`, whose operand is a gradient, is left out; a
gradient of another shape, which the code would broadcast, ends the model. -/
def sgdStep (lr : R) : List Nat → State R → Py (State R)
  | [], S => .ok S
  | j :: js, S =>
    match (S.graph.node j).grad with
    | none => .error .typeError
    | some g =>
      if g.shape = (S.val j).shape then
        sgdStep lr js { S with val := Function.update S.val j ⟨(S.val j).shape, fun o => (S.val j).at_ o - g.at_ o * lr⟩ }
      else .error .runtimeError

/-- `SGD.zero_grad`, `sgd.py:37-40` -/
def zeroGrads (js : List Nat) (G : Graph (Tensor R)) : Graph (Tensor R) :=
  js.foldl (fun G j => G.modify j fun n => { n with grad := none }) G

/-- one round: the loss, `loss.backward()`, `optimizer.step()`, `optimizer.zero_grad()`.  `depth` bounds Python's recursion. -/
def trainRound (p depth : Nat) (lr : R) (rd : Round R) (S : State R) : Py (State R) := do
  let S₁ ← computeLoss sig p rd S
  match backward depth (place p S.graph.size rd.loss) S₁ with
  | (.error e, _) => .error e
  | (.ok (), G) =>
    let S₂ ← sgdStep lr (List.range p) ⟨S₁.val, G⟩
    return { S₂ with graph := zeroGrads (List.range p) S₂.graph }

/-- the loop -/
def train (p depth : Nat) (lr : R) (rounds : List (Round R)) (S : State R) : Py (State R) :=
  rounds.foldlM (fun S rd => trainRound sig p depth lr rd S) S

/-- a session with the parameters `θ 0, …, θ (p - 1)` only -/
def withParameters (p : Nat) (θ : Nat → Tensor R) : Py (State R) := run sig θ (List.replicate p (.leaf true))

end

end SyMPC.Grad
