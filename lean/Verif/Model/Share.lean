import Verif.Model.Session

/-!
# `ShareTensor` and the additive part of `MPCTensor`

`src/sympc/tensor/share_tensor.py`, `src/sympc/tensor/mpc_tensor.py`
-/

namespace SyMPC

/-- A public value (`torch.Tensor`, `float` or `int`) of type `P` can be encoded as a share value of type `T`,
element by element. -/
class PubEnc (P T : Type) where
  enc : Config → P → T

/-- one element -/
instance : PubEnc FixedPointEncoder.Val I64 := ⟨fun c v => c.encoder.encode v⟩

/-- a tensor with index type `ι`, encoded element by element -/
instance {ι P T : Type} [PubEnc P T] : PubEnc (ι → P) (ι → T) := ⟨fun c v i => PubEnc.enc c (v i)⟩

/-- no public operand (used where both operands are shares) -/
instance {T : Type} : PubEnc Empty T := ⟨fun _ e => e.elim⟩

/-- `ShareTensor`, `share_tensor.py:70-80` (the encoder object is a function of the configuration). -/
structure ShareTensor (T : Type) where
  tensor : T
  sessionUuid : Option Nat
  config : Config
  ringSize : Nat

namespace ShareTensor

variable {P T : Type}

/-- `ShareTensor(data=y, ring_size=..., config=...)`, `share_tensor.py:102-130`.  Simplification: the conversion
`.to(tensor_type)` is not modelled, the share type `T` is that of the ring. -/
def ofPublic [PubEnc P T] (y : P) (config : Config) (ringSize : Nat) : Py (ShareTensor T) := do
  let _ ← getTypeFromRing ringSize
  return { tensor := PubEnc.enc config y, sessionUuid := none, config := config, ringSize := ringSize }

/-- `ShareTensor.sanity_checks`, `share_tensor.py:146-179`.  `None.ring_size` (a session that is not known) is an
`AttributeError`. -/
def sanityChecks {U : Type} [PubEnc P U] (env : Env) (x : ShareTensor T) : P ⊕ ShareTensor U → Py (ShareTensor U)
  | .inl y =>
    match x.sessionUuid with
    | some u =>
      match env u with
      | none => .error .attributeError
      | some s => ofPublic y s.config s.ringSize
    | none => ofPublic y x.config x.ringSize
  | .inr y =>
    match y.sessionUuid, x.sessionUuid with
    | some u, some v => if u ≠ v then .error .valueError else .ok y
    | _, _ => .ok y

/-- `ShareTensor.apply_function`, `share_tensor.py:181-212`, for a share operand. -/
def applyFunction {U V : Type} (env : Env) (op : T → U → V) (x : ShareTensor T) (y : ShareTensor U) : Py (ShareTensor V) :=
  let value := op x.tensor y.tensor
  match x.sessionUuid.or y.sessionUuid with
  | some u =>
    match env u with
    | none => .error .attributeError
    | some s => .ok { tensor := value, sessionUuid := some u, config := s.config, ringSize := s.ringSize }
  | none => .ok { tensor := value, sessionUuid := none, config := x.config, ringSize := x.ringSize }

/-- `ShareTensor.add`, `share_tensor.py:214-225`. -/
def add [Add T] [PubEnc P T] (env : Env) (x : ShareTensor T) (y : P ⊕ ShareTensor T) : Py (ShareTensor T) := do
  let y ← sanityChecks env x y
  applyFunction env (· + ·) x y

/-- `ShareTensor.sub`, `share_tensor.py:227-238`. -/
def sub [Sub T] [PubEnc P T] (env : Env) (x : ShareTensor T) (y : P ⊕ ShareTensor T) : Py (ShareTensor T) := do
  let y ← sanityChecks env x y
  applyFunction env (· - ·) x y

/-- `ShareTensor.rsub`, `share_tensor.py:240-251`. -/
def rsub [Sub T] [PubEnc P T] (env : Env) (x : ShareTensor T) (y : P ⊕ ShareTensor T) : Py (ShareTensor T) := do
  let y ← sanityChecks env x y
  applyFunction env (· - ·) y x

/-- `ShareTensor.mul` and `matmul`, `share_tensor.py:253-271, 286-307`, for a product `op`; `trunc` is
`//= self.fp_encoder.scale`, done only when neither operand belongs to a session. -/
def prod {U V : Type} [PubEnc P U] (env : Env) (op : T → U → V) (trunc : V → V) (x : ShareTensor T)
    (y : P ⊕ ShareTensor U) : Py (ShareTensor V) := do
  let y ← sanityChecks env x y
  let res ← applyFunction env op x y
  if x.sessionUuid = none ∧ y.sessionUuid = none then
    return { res with tensor := trunc res.tensor }
  else
    return res

/-- `ShareTensor.div`, `share_tensor.py:319-337`: division of the share by a public integer; the ring size of the result
is the default. -/
def div (dv : T → T) (x : ShareTensor T) : ShareTensor T :=
  { tensor := dv x.tensor, sessionUuid := x.sessionUuid, config := x.config, ringSize := 2 ^ 64 }

/-- `ShareTensor.xor` with a public integer, `share_tensor.py:273-284`: the integer is not encoded. -/
def xorPublic (env : Env) (x : ShareTensor I64) (y : I64) : Py (ShareTensor I64) :=
  match x.sessionUuid with
  | none => .error .attributeError
  | some u =>
    match env u with
    | none => .error .attributeError
    | some s => .ok { tensor := x.tensor ^^^ y, sessionUuid := some u, config := s.config, ringSize := s.ringSize }

/-- A forwarded method that returns a new share (`t`, `view`, `sum`, ...), `share_tensor.py:468-475`: the method is
applied to the tensor, session and configuration are kept and the ring size is reset to the default. -/
def hookMethod {T' : Type} (f : T → T') (x : ShareTensor T) : ShareTensor T' :=
  { tensor := f x.tensor, sessionUuid := x.sessionUuid, config := x.config, ringSize := 2 ^ 64 }

/-- `ShareTensor.reconstruct`, `share_tensor.py:491-540`: Python's `sum` of the tensors, starting from 0.  With no
shares the thread pool refuses zero workers (`ValueError`, `src/sympc/utils/utils.py:80-86`). -/
def reconstruct [Add T] [Zero T] (shares : List (ShareTensor T)) : Py T :=
  if shares = [] then .error .valueError
  else .ok ((shares.map (·.tensor)).foldl (· + ·) 0)

/-- `ShareTensor.distribute_shares`, `share_tensor.py:542-562`: share `r` gets the session uuid of party `r`. -/
def distributeShares (s : Session) (shares : List (ShareTensor T)) : Py (List (ShareTensor T)) :=
  shares.zipIdx.mapM fun (sh, rank) =>
    match s.rankToUuid[rank]? with
    | none => .error .keyError
    | some u =>
      match s.parties[rank]? with
      | none => .error .indexError
      | some _ => .ok { sh with sessionUuid := some u }

end ShareTensor

/-- Python list indexing `l[i]` for `i >= 0`. -/
def pyGet {α : Type} (l : List α) (i : Nat) : Py α :=
  match l[i]? with
  | some a => .ok a
  | none => .error .indexError

/-- `MPCTensor.generate_shares`, `mpc_tensor.py:280-357`.  `draws k` is the `k`-th tensor drawn by `random_()`.
The secret is already a `ShareTensor` (for a plain value it is built by `ofPublic`, lines 321-323). -/
def generateShares {T : Type} [Sub T] (env : Env) (secret : ShareTensor T) (nrParties : Nat) (draws : Nat → T) :
    Py (List (ShareTensor T)) :=
  let randomShares : List (ShareTensor T) := (List.range (nrParties - 1)).map fun k =>
    { tensor := draws k, sessionUuid := none, config := secret.config, ringSize := 2 ^ 64 }
  (List.range nrParties).mapM fun i => do
    if i = 0 then
      pyGet randomShares i
    else if i < nrParties - 1 then do
      let a ← pyGet randomShares i
      let b ← pyGet randomShares (i - 1)
      ShareTensor.sub (P := Empty) env a (.inr b)
    else do
      let b ← pyGet randomShares (i - 1)
      ShareTensor.sub (P := Empty) env secret (.inr b)

/-- `MPCTensor` with additive shares, `mpc_tensor.py:98-112`, without the fields used for training and the shape. -/
structure MPCTensor (T : Type) where
  session : Session
  shares : List (ShareTensor T)

namespace MPCTensor

variable {P T : Type}

/-- `MPCTensor(shares=..., session=...)` for shares that are already at the parties, `mpc_tensor.py:161-164, 193-199`. -/
def ofShares (s : Session) (shares : List (ShareTensor T)) : Py (MPCTensor T) :=
  if s.sessionPtrs.length = 0 then .error .valueError
  else if shares = [] then .error .indexError
  else .ok { session := s, shares := shares }

/-- `MPCTensor(secret=..., session=...)` for a secret known to the orchestrator, `mpc_tensor.py:161-199`, with
`sanity_checks` (lines 245-251): the secret is encoded with the session's configuration. -/
def ofSecret [Sub T] [PubEnc P T] (env : Env) (s : Session) (secret : P) (draws : Nat → T) : Py (MPCTensor T) := do
  if s.sessionPtrs.length = 0 then throw PyErr.valueError
  let secret ← ShareTensor.ofPublic (T := T) secret s.config (2 ^ 64)
  let shares ← generateShares env secret s.nrParties draws
  if shares = [] then throw PyErr.indexError
  let shares ← ShareTensor.distributeShares s shares
  return { session := s, shares := shares }

/-- `MPCTensor.reconstruct(decode=False)`, `mpc_tensor.py:359-380`, for additive shares. -/
def reconstruct [Add T] [Zero T] (x : MPCTensor T) : Py T := ShareTensor.reconstruct x.shares

/-- The two linear operations between secrets. -/
inductive LinOp where
  | add | sub
  deriving DecidableEq, Repr

/-- the share level operation for a `LinOp` -/
def shareOp [Add T] [Sub T] [PubEnc P T] (env : Env) : LinOp → ShareTensor T → P ⊕ ShareTensor T → Py (ShareTensor T)
  | .add => ShareTensor.add env
  | .sub => ShareTensor.sub env

/-- The checks at the start of `__apply_private_op`, `mpc_tensor.py:672-678`. -/
def checkPrivate (s t : Session) : Py Unit :=
  if s.protocol.shareClass ≠ t.protocol.shareClass then .error .typeError
  else if t.uuid ≠ s.uuid then .error .valueError
  else .ok ()

/-- `__apply_private_op` for "add" and "sub", `mpc_tensor.py:672-678, 708-717` (`zip` stops at the shorter list).
Simplification: shapes are not tracked (`_get_shape`, lines 757-781). -/
def applyPrivateLin [Add T] [Sub T] [PubEnc P T] (env : Env) (op : LinOp) (x y : MPCTensor T) : Py (MPCTensor T) := do
  checkPrivate x.session y.session
  let shares ← (x.shares.zip y.shares).mapM fun (a, b) => shareOp (P := P) env op a (.inr b)
  ofShares x.session shares

/-- `__apply_public_op` for "add" and "sub" on additive shares, `mpc_tensor.py:738-755`: only the first share
changes; `shares[0]` on an empty list is an `IndexError`. -/
def applyPublicLin [Add T] [Sub T] [PubEnc P T] (env : Env) (op : LinOp) (x : MPCTensor T) (y : P) : Py (MPCTensor T) :=
  match x.shares with
  | [] => .error .indexError
  | s0 :: rest => do
    let s0' ← shareOp env op s0 (.inl y)
    ofShares x.session (s0' :: rest)

/-- `__apply_public_op` for "mul" and "matmul" on additive shares, `mpc_tensor.py:738-740`, before the truncation done
by `truncate` (lines 783-825). -/
def applyPublicMul {U V : Type} [PubEnc P U] (env : Env) (op : T → U → V) (trunc : V → V) (x : MPCTensor T) (y : P) :
    Py (MPCTensor V) := do
  let shares ← x.shares.mapM fun sh => ShareTensor.prod env op trunc sh (.inl y)
  ofShares x.session shares

/-- `__apply_public_op` for "xor" on additive shares, `mpc_tensor.py:742-746`: only the first share changes. -/
def applyPublicXor (env : Env) (x : MPCTensor I64) (y : I64) : Py (MPCTensor I64) :=
  match x.shares with
  | [] => .error .indexError
  | s0 :: rest => do
    let s0' ← ShareTensor.xorPublic env s0 y
    ofShares x.session (s0' :: rest)

/-- `isub`, `mpc_tensor.py:417-428`: the shares of the receiver are replaced, the receiver is returned. -/
def isub [Add T] [Sub T] [PubEnc P T] (env : Env) (x : MPCTensor T) (y : P ⊕ MPCTensor T) : Py (MPCTensor T) := do
  let res ← match y with
    | .inl p => applyPublicLin env .sub x p
    | .inr y => applyPrivateLin (P := P) env .sub x y
  return { x with shares := res.shares }

/-- A forwarded method (`METHODS_FORWARD`, `mpc_tensor.py:114-128`, `hook_method` 1021-1067): applied to each share. -/
def hookMethod {T' : Type} (f : T → T') (x : MPCTensor T) : Py (MPCTensor T') :=
  ofShares x.session (x.shares.map (ShareTensor.hookMethod f))

end MPCTensor

end SyMPC
