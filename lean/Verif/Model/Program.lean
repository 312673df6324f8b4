import Verif.Model.Spdz

/-!
# Whole computations on secrets

Straight-line programs of the operations of `src/sympc/tensor/mpc_tensor.py` with additive shares, on tensors of one shape.
The random numbers come from a tape: one entry for each sharing of a secret and for each generated triple.
-/

namespace SyMPC.Program

/-- A statement; tensors are numbered in the order of their creation. -/
inductive Cmd (P T : Type) where
  /-- `MPCTensor(secret=v, session=session)` -/
  | secret (v : P)
  /-- `x + y`, `x - y` -/
  | lin (op : MPCTensor.LinOp) (i j : Nat)
  /-- `x + v`, `x - v` -/
  | linPublic (op : MPCTensor.LinOp) (i : Nat) (v : P)
  /-- `x * v` before the division by the scale -/
  | mulPublic (i : Nat) (v : P)
  /-- a method that every party applies to its share -/
  | method (f : T → T) (i : Nat)
  /-- `x * y` -/
  | mul (i j : Nat)

/-- What is drawn for one statement: the tensors of `generate_shares` (`mpc_tensor.py:325-337`), or those of `_get_triples`
(`beaver.py:80-103`), with `m` tensors for each sharing. -/
inductive Draw (m : Nat) (T : Type) where
  | sharing (d : Fin m → T)
  | triple (a b : T) (da db dc : Fin m → T)

/-- The tensors drawn, as a function on all numbers. -/
def extend {T : Type} [Zero T] {m : Nat} (d : Fin m → T) : Nat → T := fun k => if h : k < m then d ⟨k, h⟩ else 0

/-- What can be seen of a statement: the shares of a new secret, one per party; or the opened values of a product and the triple, one
part per party. -/
inductive Event (T : Type) where
  | shared (shares : List T)
  | product (eps delta : T) (triples : List (T × T × T))
  deriving DecidableEq

/-- the tensors made so far, the stores, and (not in the code) what could be seen -/
structure State (T : Type) where
  tensors : List (MPCTensor T)
  world : World Unit (fun _ => T) (fun _ => T) fun _ => T
  log : List (Event T)

/-- a session without tensors and primitives -/
def State.empty {T : Type} : State T := ⟨[], World.empty, []⟩

section
variable {P T : Type} [AddCommGroup T] [PubEnc P T] (env : Env) (s : Session) (op : T → T → T) (trunc : Config → T → T)

/-- a new tensor -/
def State.push (S : State T) (x : MPCTensor T) : State T := { S with tensors := S.tensors ++ [x] }

/-- the parts of the next triple that the parties hold, in the order of their ranks -/
def heldTriples (w : World Unit (fun _ => T) (fun _ => T) fun _ => T) : Py (List (T × T × T)) :=
  s.rankToUuid.mapM fun u => do
    let (t, _) ← (w.stores u).get () false
    return (t.a.tensor, t.b.tensor, t.c.tensor)

/-- `MPCTensor(secret=...)`, `mpc_tensor.py:161-199` -/
def share {m : Nat} (v : P) (d : Fin m → T) (S : State T) : Py (State T) := do
  let x ← MPCTensor.ofSecret env s v (extend d)
  return { S.push x with log := S.log ++ [.shared (x.shares.map (·.tensor))] }

/-- `mul_master`, `spdz.py:36-96`, of tensors `i` and `j` -/
def product {m : Nat} (i j : Nat) (a b : T) (da db dc : Fin m → T) (S : State T) : Py (State T) := do
  let x ← pyGet S.tensors i
  let y ← pyGet S.tensors j
  let rnd : Unit → Nat → TripleRand T T T := fun _ _ => ⟨a, b, extend da, extend db, extend dc⟩
  let (_, w) ← maskOrGenerate (K := Unit) (Kw := Unit) (A := fun _ => T) (B := fun _ => T) (C := fun _ => T) env (fun _ _ => op) rnd () ()
    S.world x y
  let ts ← heldTriples s w
  let (out, w) ← mulMaster (K := Unit) (Kw := Unit) (A := fun _ => T) (B := fun _ => T) (C := fun _ => T) env (fun _ _ => op)
    (fun _ => trunc) rnd () () S.world x y
  return ⟨S.tensors ++ [out.result], w, S.log ++ [.product out.eps out.delta ts]⟩

/-- the statements that need no random numbers: `__apply_private_op` and `__apply_public_op`, `mpc_tensor.py:672-753`, and
`hook_method`, `mpc_tensor.py:1021-1067` -/
def plain (S : State T) : Cmd P T → Py (State T)
  | .lin o i j => do
    let x ← pyGet S.tensors i
    let y ← pyGet S.tensors j
    let z ← MPCTensor.applyPrivateLin (P := P) env o x y
    return S.push z
  | .linPublic o i v => do
    let x ← pyGet S.tensors i
    let z ← MPCTensor.applyPublicLin env o x v
    return S.push z
  | .mulPublic i v => do
    let x ← pyGet S.tensors i
    let z ← MPCTensor.applyPublicMul env op (trunc x.session.config) x v
    return S.push z
  | .method f i => do
    let x ← pyGet S.tensors i
    let z ← MPCTensor.hookMethod f x
    return S.push z
  | _ => .error .runtimeError

/-- A program; a tape with other entries than the program needs is refused (the code draws what it needs). -/
def run {m : Nat} : List (Cmd P T) → List (Draw m T) → State T → Py (State T)
  | [], [], S => .ok S
  | [], _ :: _, _ => .error .runtimeError
  | .secret v :: cs, .sharing d :: tape, S => do
    let S ← share env s v d S
    run cs tape S
  | .mul i j :: cs, .triple a b da db dc :: tape, S => do
    let S ← product env s op trunc i j a b da db dc S
    run cs tape S
  | .secret _ :: _, _, _ => .error .runtimeError
  | .mul _ _ :: _, _, _ => .error .runtimeError
  | c :: cs, tape, S => do
    let S ← plain env op trunc S c
    run cs tape S

end

end SyMPC.Program
