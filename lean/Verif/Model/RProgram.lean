import Verif.Model.Falcon
import Verif.Model.Program

/-!
# Whole computations on replicated shares

Straight-line programs of the operations of `src/sympc/tensor/mpc_tensor.py` with three parties and replicated shares, on tensors
of one shape in the ring of the session.  The random numbers come from a tape.
-/

namespace SyMPC.RProgram

open Program (Cmd)

/-- What is drawn for one statement: the two tensors of `generate_shares` (`mpc_tensor.py:325-337`); for a product the numbers that the
generators shared by two parties give (`session.py:188-217`), party `r` having those with the numbers `r` and `r + 1`, the mask of the
truncation (`aby3.py:92`), and with malicious security the numbers of the triple and of its product (`beaver.py:104-126`); the mask of
the truncation alone. -/
inductive Draw (T : Type) where
  | sharing (d0 d1 : T)
  | product (f : Fin 3 → T) (r : T) (a b g : Fin 3 → T)
  | trunc (r : T)

/-- What can be seen of a statement: for each party the tensors that it draws or receives, and those that the coordinator of the
session makes, or collects for the truncation. -/
structure Event (T : Type) where
  parties : List (List T)
  coordinator : List T
  deriving DecidableEq

/-- the tensors made so far, and (not in the code) what could be seen -/
structure State (T : Type) where
  tensors : List (RMPC T)
  log : List (Event T)

/-- a session without tensors -/
def State.empty {T : Type} : State T := ⟨[], []⟩

section
variable {P T : Type} [CommRing T] [DecidableEq T] [PubEnc P T] (K : RingKit T) (env : Env) (s : Session)

/-- the numbers with the indices 0, 1, 2 -/
def at3 (f : Fin 3 → T) (i : Nat) : T := f (Fin.ofNat 3 i)

/-- the zero share of party `r`, `session.py:250-258` -/
def zeroShare (f : Fin 3 → T) (r : Nat) : T := K.ops.sub (at3 f r) (at3 f (r + 1))

/-- what a party holds of a tensor -/
def heldBy (x : RMPC T) (r : Nat) : List T := (x.shares[r]?.map (·.shares)).getD []

/-- `MPCTensor(secret=...)`, `mpc_tensor.py:161-199`, with `distribute_shares` of the protocol, `falcon.py:53-66`: the coordinator has
the secret and makes the shares. -/
def share (v : P) (d0 d1 : T) (S : State T) : Py (State T) := do
  if s.sessionPtrs.length = 0 then throw PyErr.valueError
  let secret ← ShareTensor.ofPublic (T := T) v s.config (2 ^ 64)
  let adds ← generateShares env secret s.nrParties (fun k => if k = 0 then d0 else d1)
  let x ← RMPC.ofAdditive s (adds.map (·.tensor))
  return ⟨S.tensors ++ [x], S.log ++ [⟨(List.range 3).map (heldBy x), adds.map (·.tensor)⟩]⟩

/-- `x * y`, `falcon.py:85-131`, of tensors `i` and `j`.  With malicious security the stores are empty before, so that a triple is made
(`falcon.py:306-325`); what the parties see of it are their parts of the triple, the opened differences (`falcon.py:326-338`) and the shares
of the product before the truncation.  The coordinator collects the product for the truncation (`aby3.py:136-149`).  Simplification: what
else the coordinator collects (triples, differences) is not recorded. -/
def product (i j : Nat) (f : Fin 3 → T) (r : T) (a b g : Fin 3 → T) (S : State T) : Py (State T) := do
  let x ← pyGet S.tensors i
  let y ← pyGet S.tensors j
  let zs ← Falcon.mulShares K.ops env K.product (zeroShare K f) s x y
  match s.protocol.security with
  | .semiHonest =>
    let z ← RMPC.mulPrivate K env ⟨zeroShare K f, fun _ => .error .emptyStore, r⟩ x y
    return ⟨S.tensors ++ [z], S.log ++ [⟨(List.range 3).map fun p => [at3 f p, at3 f (p + 1)] ++ heldBy z p, zs⟩]⟩
  | .malicious =>
    let gen : Falcon.RTripleRand T T T := ⟨at3 a, at3 b, zeroShare K g⟩
    let st ← Falcon.generate K K K env K.product s K.size gen fun _ => []
    let ts ← s.rankToUuid.mapM (Falcon.front st)
    let mask ← parallelExecution s.parties (fun (x, y) => Falcon.falconMask K.ops K.ops env (Falcon.front st) x y) (x.shares.zip y.shares)
    let eps ← RST.reconstruct K.ops (mask.map (·.1)) .semiHonest
    let delta ← RST.reconstruct K.ops (mask.map (·.2)) .semiHonest
    let z ← RMPC.mulPrivate K env ⟨zeroShare K f, Falcon.front st, r⟩ x y
    return ⟨S.tensors ++ [z], S.log ++ [⟨(List.range 3).map fun p =>
        [at3 f p, at3 f (p + 1), at3 g p, at3 g (p + 1)]
          ++ (ts[p]?.map fun t => t.a.shares ++ t.b.shares ++ t.c.shares).getD []
          ++ [eps, delta] ++ [zs.getD p 0, zs.getD ((p + 1) % 3) 0] ++ heldBy z p,
      zs⟩]⟩

/-- `x * v` for a public value, `mpc_tensor.py:739-740, 812-820`: the coordinator collects the product for the truncation
(`aby3.py:136-146`) -/
def mulPublic (i : Nat) (v : P) (r : T) (S : State T) : Py (State T) := do
  let x ← pyGet S.tensors i
  let y ← RMPC.publicMul K.ops x (PubEnc.enc s.config v)
  let z ← RMPC.mulEnc K x (fun c => PubEnc.enc c v) r
  return ⟨S.tensors ++ [z], S.log ++ [⟨(List.range 3).map (heldBy z), (heldBy y 0).take 1 ++ heldBy y 1⟩]⟩

/-- the statements that need no random numbers: `__apply_private_op` and `__apply_public_op`, `mpc_tensor.py:672-753`, and
`hook_method`, `mpc_tensor.py:1021-1067` -/
def plain (S : State T) : Cmd P T → Py (State T)
  | .lin o i j => do
    let x ← pyGet S.tensors i
    let y ← pyGet S.tensors j
    let z ← RMPC.privateLin K.ops o x y
    return { S with tensors := S.tensors ++ [z] }
  | .linPublic o i v => do
    let x ← pyGet S.tensors i
    let z ← RMPC.linEnc K.ops env o x fun c => PubEnc.enc c v
    return { S with tensors := S.tensors ++ [z] }
  | .method f i => do
    let x ← pyGet S.tensors i
    let z ← RMPC.hookMethod f x
    return { S with tensors := S.tensors ++ [z] }
  | _ => .error .runtimeError

/-- A program; a tape with other entries than the program needs is refused (the code draws what it needs). -/
def run : List (Cmd P T) → List (Draw T) → State T → Py (State T)
  | [], [], S => .ok S
  | [], _ :: _, _ => .error .runtimeError
  | .secret v :: cs, .sharing d0 d1 :: tape, S => do
    let S ← share env s v d0 d1 S
    run cs tape S
  | .mul i j :: cs, .product f r a b g :: tape, S => do
    let S ← product K env s i j f r a b g S
    run cs tape S
  | .mulPublic i v :: cs, .trunc r :: tape, S => do
    let S ← mulPublic K s i v r S
    run cs tape S
  | .secret _ :: _, _, _ => .error .runtimeError
  | .mul _ _ :: _, _, _ => .error .runtimeError
  | .mulPublic _ _ :: _, _, _ => .error .runtimeError
  | c :: cs, tape, S => do
    let S ← plain K env S c
    run cs tape S

end

end SyMPC.RProgram
