import Verif.Model.Approx
import Verif.Model.Layer

/-!
# Networks of linear layers and `relu` on shares

What a user's `forward` does with the layers that `share` made of a torch module (`src/sympc/module/__init__.py:57-84`): it calls
`Linear.forward` (`src/sympc/module/nn/linear.py:47-61`) and `relu` (`src/sympc/module/nn/functional.py:38-51`) one after another,
in a two-party session without autograd.
-/

namespace SyMPC.Network

open FixedPointEncoder (Val)

variable {Key : Type}

/-- A `forward` of layers from `i` inputs to `o` outputs; `L` are the linear layers. -/
inductive Net (L : Nat → Nat → Type) : Nat → Nat → Type where
  /-- `return x` -/
  | done {n : Nat} : Net L n n
  /-- `x = self.fc(x)` -/
  | linear {i h o : Nat} (layer : L i h) (rest : Net L h o) : Net L i o
  /-- `x = relu(x)` -/
  | relu {i o : Nat} (rest : Net L i o) : Net L i o

/-- the parameters of a `torch.nn.Linear` -/
structure TorchLinear (i o : Nat) where
  weight : Fin o × Fin i → ℚ
  bias : Option (Fin o → ℚ)

/-- `share` of a local module, `module/__init__.py:57-84`: each layer in turn is made by `share_state_dict`, `linear.py:77-113`.
`draw` are the random shares, by parameter, party and position. -/
def share (env : Env) (s : Session) (draw : Nat → Nat → Nat → Nat → I64) {i o : Nat} (k : Nat) :
    Net TorchLinear i o → Py (Net LinearLayer i o)
  | .done => .ok .done
  | .linear layer rest => do
    let l ← LinearLayer.share env s (fun p => .float (layer.weight p)) (layer.bias.map fun v j => .float (v j))
      (fun r p => draw (2 * k) r p.1 p.2) (fun r j => draw (2 * k + 1) r j 0)
    let rest ← share env s draw (k + 1) rest
    return .linear l rest
  | .relu rest => do
    let rest ← share env s draw k rest
    return .relu rest

/-- the stores of the parties: those for matrix products, and those for products of elements and comparisons.  Both are kept by
shapes and operators, so that neither is seen by the other (`src/sympc/store/crypto_store.py:28-62`). -/
abbrev NetState (Key : Type) := MatWorld × MState Key

/-- the elements of a matrix, row after row; not in the code, where the operators take any shape -/
def flat {b n : Nat} (v : Fin b × Fin n → I64) : Fin (b * n) → I64 := fun j => v (finProdFinEquiv.symm j)

/-- and back -/
def unflat {b n : Nat} (v : Fin (b * n) → I64) : Fin b × Fin n → I64 := fun p => v (finProdFinEquiv p)

/-- Not in the code: the shares of `x @ weight.t()` before they are divided by the scale, `spdz.py:171-176`. -/
def rawProduct (env : Env) (rnd : (k : MatKey) → Nat → TripleRand (MatL k) (MatR k) (MatO k)) {b i o : Nat}
    (layer : LinearLayer i o) (x : MPCTensor (Fin b × Fin i → I64)) (w : MatWorld) : Py (MPCTensor (Fin b × Fin o → I64)) := do
  let wt ← MPCTensor.hookMethod matT layer.weight
  let (out, _) ← mulMaster (Kw := Unit) env (fun k _ a b => matProd k a b) (fun _ _ z => z) rnd (b, i, o) () w x wt
  return out.result

/-- `Linear.forward`, `linear.py:47-61`.  Not in the code: a sum of two shares that leaves the ring before they are divided ends the
computation with `.inr ()`. -/
def linear (M : Machine Key) (rnd : (k : MatKey) → Nat → TripleRand (MatL k) (MatR k) (MatO k)) {b i o : Nat}
    (layer : LinearLayer i o) (x : MPCTensor (Fin b × Fin i → I64)) (w : NetState Key) :
    Except (PyErr ⊕ Unit) (MPCTensor (Fin b × Fin o → I64) × NetState Key) :=
  match layer.forward M.env rnd x w.1, rawProduct M.env rnd layer x w.1 with
  | .ok (out, t), .ok raw =>
    if wrapsAt (raw.shares.map (ShareTensor.hookMethod flat)) then .error (.inr ()) else .ok (out, (t, w.2))
  | .error e, _ => .error (.inl e)
  | _, .error e => .error (.inl e)

/-- `relu` of a matrix, `functional.py:38-51` -/
def relu (M : Machine Key) {b n : Nat} (x : MPCTensor (Fin b × Fin n → I64)) (w : NetState Key) :
    Except (PyErr ⊕ Unit) (MPCTensor (Fin b × Fin n → I64) × NetState Key) :=
  match MPCTensor.hookMethod flat x with
  | .error e => .error (.inl e)
  | .ok y =>
    match reluS M.ops y w.2 with
    | .error e => .error e
    | .ok (z, s) =>
      match MPCTensor.hookMethod unflat z with
      | .error e => .error (.inl e)
      | .ok z => .ok (z, (w.1, s))

/-- the user's `forward` on a batch of `b` inputs -/
def forward (M : Machine Key) (rnd : (k : MatKey) → Nat → TripleRand (MatL k) (MatR k) (MatO k)) {b i o : Nat} :
    Net LinearLayer i o → MPCTensor (Fin b × Fin i → I64) → NetState Key →
    Except (PyErr ⊕ Unit) (MPCTensor (Fin b × Fin o → I64) × NetState Key)
  | .done, x, w => .ok (x, w)
  | .linear layer rest, x, w =>
    match linear M rnd layer x w with
    | .error e => .error e
    | .ok (y, w) => forward M rnd rest y w
  | .relu rest, x, w =>
    match relu M x w with
    | .error e => .error e
    | .ok (y, w) => forward M rnd rest y w

/-- Private inference: the owner of the model shares it (`model.share(session=session)`), the owner of the data shares the inputs
(`MPCTensor(secret=..., session=session)`, `mpc_tensor.py:132-209`), and the outputs are opened (`mpc_tensor.py:359-384`) and decoded,
here as exact numbers. -/
def predict (M : Machine Key) (rnd : (k : MatKey) → Nat → TripleRand (MatL k) (MatR k) (MatO k))
    (draw : Nat → Nat → Nat → Nat → I64) (drawX : Nat → Nat → Nat → I64) {b i o : Nat} (net : Net TorchLinear i o)
    (input : Fin b → Fin i → ℚ) (w : NetState Key) : Except (PyErr ⊕ Unit) ((Fin b → Fin o → ℚ) × NetState Key) :=
  match share M.env M.session draw 0 net with
  | .error e => .error (.inl e)
  | .ok shared =>
    match MPCTensor.ofSecret M.env M.session (fun p : Fin b × Fin i => Val.float (input p.1 p.2)) fun r p => drawX r p.1 p.2 with
    | .error e => .error (.inl e)
    | .ok x =>
      match forward M rnd shared x w with
      | .error e => .error e
      | .ok (y, w) =>
        match y.reconstruct with
        | .error e => .error (.inl e)
        | .ok v => .ok (fun r c => (v (r, c)).toInt / M.scale, w)

end SyMPC.Network
