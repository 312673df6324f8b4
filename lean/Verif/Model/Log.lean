import Verif.Model.Spdz

/-!
# Logging and replaying requests for primitives

`src/sympc/store/crypto_primitive_provider.py`

`O` is the type of the names of primitives (`beaver_mul`, `beaver_matmul`, ...), `opOf` gives the name that belongs to a
key of the stores.
-/

namespace SyMPC

variable {O K Kw : Type} [DecidableEq O] [DecidableEq K] {A B C : K → Type}

/-- The class attributes `_LOGGING` and `_ops_list`, `crypto_primitive_provider.py:17-20`.  The dictionary is the list of
its items in the order of insertion. -/
structure Provider (O K Kw : Type) where
  logging : Bool
  ops : List (O × List (K × Kw))

/-- `_ops_list[op_str].append(entry)` of a `DefaultDict(list)` -/
def appendOp (o : O) (e : K × Kw) : List (O × List (K × Kw)) → List (O × List (K × Kw))
  | [] => [(o, [e])]
  | (o', l) :: rest => if o' = o then (o', l ++ [e]) :: rest else (o', l) :: appendOp o e rest

/-- the logging in `generate_primitives`, `crypto_primitive_provider.py:63-64` -/
def Provider.record (p : Provider O K Kw) (o : O) (e : K × Kw) : Provider O K Kw :=
  if p.logging then { p with ops := appendOp o e p.ops } else p

/-- `start_logging`, `crypto_primitive_provider.py:107-110` -/
def Provider.start (p : Provider O K Kw) : Provider O K Kw := { p with logging := true }

/-- `stop_logging`, `crypto_primitive_provider.py:112-130`: the log and the provider afterwards.  With `generate_file` the log
has to be written as JSON; `serializable` says whether an entry can be. The log is cleared before it is written. -/
def Provider.stop (serializable : K × Kw → Bool) (generateFile : Bool) (p : Provider O K Kw) :
    Py (List (O × List (K × Kw))) × Provider O K Kw :=
  let p' : Provider O K Kw := ⟨false, []⟩
  if generateFile ∧ ¬ (p.ops.all fun o => o.2.all serializable) then (.error .typeError, p') else (.ok p.ops, p')

section
variable [∀ k, AddCommGroup (A k)] [∀ k, AddCommGroup (B k)] [∀ k, AddCommGroup (C k)] (env : Env)
  (opOf : K → O) (op : (k : K) → Kw → A k → B k → C k) (rnd : (k : K) → Nat → TripleRand (A k) (B k) (C k))

/-- `generate_primitives` with its log, `crypto_primitive_provider.py:26-75` -/
def generateLogged (s : Session) (k : K) (kw : Kw) (p : Provider O K Kw) (w : World K A B C) :
    Py (Provider O K Kw × World K A B C) := do
  let w ← generatePrimitives env s op rnd k kw w
  return (p.record (opOf k) (k, kw), w)

/-- `mul_master` with the log of the provider.  The log is written when the first mask step finds an empty store,
`spdz.py:62-76`. -/
def mulMasterLogged (trunc : (k : K) → Config → C k → C k) (k : K) (kw : Kw) (p : Provider O K Kw) (w : World K A B C)
    (x : MPCTensor (A k)) (y : MPCTensor (B k)) : Py (MulOut (A k) (B k) (C k) × Provider O K Kw × World K A B C) := do
  let (out, w') ← mulMaster env op trunc rnd k kw w x y
  let p' := match maskAll env w k x y with
    | .error .emptyStore => p.record (opOf k) (k, kw)
    | _ => p
  return (out, p', w')

/-- the inner loop of `generate_primitive_from_dict`, `crypto_primitive_provider.py:148-154` -/
def replayArgs (s : Session) : List (K × Kw) → Provider O K Kw → World K A B C → Py (Provider O K Kw × World K A B C)
  | [], p, w => .ok (p, w)
  | (k, kw) :: rest, p, w => do
    let (p, w) ← generateLogged env opOf op rnd s k kw p w
    replayArgs s rest p w

/-- `generate_primitive_from_dict`, `crypto_primitive_provider.py:132-154` -/
def replayLog (s : Session) : List (O × List (K × Kw)) → Provider O K Kw → World K A B C →
    Py (Provider O K Kw × World K A B C)
  | [], p, w => .ok (p, w)
  | (_, args) :: rest, p, w => do
    let (p, w) ← replayArgs env opOf op rnd s args p w
    replayLog s rest p w

/-- A computation: a sequence of products of two secrets. -/
structure Request (K Kw : Type) (A B : K → Type) where
  k : K
  kw : Kw
  x : MPCTensor (A k)
  y : MPCTensor (B k)

/-- Running a computation. -/
def runLogged (trunc : (k : K) → Config → C k → C k) : List (Request K Kw A B) → Provider O K Kw → World K A B C →
    Py (List (Σ k, MPCTensor (C k)) × Provider O K Kw × World K A B C)
  | [], p, w => .ok ([], p, w)
  | r :: rs, p, w => do
    let (out, p, w) ← mulMasterLogged env opOf op rnd trunc r.k r.kw p w r.x r.y
    let (outs, p, w) ← runLogged trunc rs p w
    return (⟨r.k, out.result⟩ :: outs, p, w)

end

end SyMPC
