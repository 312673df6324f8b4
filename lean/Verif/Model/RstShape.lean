import Verif.Model.Shape
import Verif.Model.ShapeFixed
import Verif.Model.Session
import Verif.Model.Falcon

/-!
# Replicated shares with their shapes

`src/sympc/tensor/mpc_tensor.py`, `src/sympc/tensor/replicatedshare_tensor.py`, `src/sympc/protocol/falcon/falcon.py` and
`src/sympc/protocol/aby3/aby3.py` for three parties in the ring of the session: the shapes that torch computes at the parties, and the
shape that an `MPCTensor` reports.  Sessions, configurations and rings are left out (see `Model/Rst.lean`, `Model/Falcon.lean`), public
operands are already encoded, and `cut` is the division of one number by the scale (the identity for precision 0).
-/

namespace SyMPC.RShape

open Tensor Shape

variable {T : Type}

/-- one for each of the three parties, or for each of the three shares -/
structure Trio (A : Type) where
  p0 : A
  p1 : A
  p2 : A

/-- a computation at every party, `utils.py:46-113` -/
def Trio.run {A B : Type} (f : A → Py B) (t : Trio A) : Py (Trio B) := do
  let a ← f t.p0
  let b ← f t.p1
  let c ← f t.p2
  return ⟨a, b, c⟩

/-- what the parties have of two tensors, `zip` as at `falcon.py:163` -/
def Trio.zip {A B : Type} (s : Trio A) (t : Trio B) : Trio (A × B) := ⟨(s.p0, t.p0), (s.p1, t.p1), (s.p2, t.p2)⟩

/-- the two shares of a party, `replicatedshare_tensor.py:102-105` -/
abbrev Held (T : Type) := Tensor T × Tensor T

/-- an `MPCTensor` with replicated shares, `mpc_tensor.py:98-112` -/
structure RSecret (T : Type) where
  held : Trio (Held T)
  shape : Reported

/-- `distribute_shares`, `replicatedshare_tensor.py:874-961`: party `r` gets the shares `r` and `r + 1` -/
def distribute (l : Trio (Tensor T)) : Trio (Held T) := ⟨(l.p0, l.p1), (l.p1, l.p2), (l.p2, l.p0)⟩

/-- `MPCTensor(secret=x)` for a number or a tensor, `mpc_tensor.py:166-199`: additive shares (`Shape.ofSecret`) that are distributed -/
def ofSecret [Sub T] (secret : Operand T) (draws : Nat → List Nat → T) : Py (RSecret T) := do
  let x ← Shape.ofSecret secret 3 draws
  match x.shares with
  | [a, b, c] => return ⟨distribute ⟨a, b, c⟩, x.shape⟩
  | _ => throw .valueError

/-! ### Opening -/

/-- `shares_sum` of three tensors, `replicatedshare_tensor.py:730-747` -/
def sum3 [Add T] (a b c : Tensor T) : Py (Tensor T) := do
  let s ← Tensor.zip (· + ·) a b
  Tensor.zip (· + ·) s c

/-- `__reconstruct_semi_honest`, `replicatedshare_tensor.py:763-790` -/
def reconstructSemi [Add T] (h : Trio (Held T)) : Py (Tensor T) := sum3 h.p0.1 h.p1.1 h.p1.2

/-- `(tensor != value).any()`, `replicatedshare_tensor.py:830` -/
def differs [DecidableEq T] (a b : Tensor T) : Py Bool := do
  let d ← Tensor.zip (fun x y => decide (x ≠ y)) a b
  return (indices d.shape).any d.at_

/-- `__reconstruct_malicious`, `replicatedshare_tensor.py:792-838` -/
def reconstructMalicious [Add T] [DecidableEq T] (h : Trio (Held T)) : Py (Tensor T) := do
  let v ← sum3 h.p0.1 h.p1.1 h.p1.2
  let v1 ← sum3 h.p1.1 h.p2.1 h.p2.2
  if ← differs v1 v then throw .valueError
  let v2 ← sum3 h.p2.1 h.p0.1 h.p0.2
  if ← differs v2 v then throw .valueError
  return v

/-- `reconstruct` without decoding, `mpc_tensor.py:359-383` and `replicatedshare_tensor.py:840-872` -/
def reconstruct [Add T] [DecidableEq T] (security : Security) (x : RSecret T) : Py (Tensor T) :=
  match security with
  | .semiHonest => reconstructSemi x.held
  | .malicious => reconstructMalicious x.held

variable [Add T] [Sub T] [Mul T] [Zero T]

/-! ### Sums, and products with public operands -/

/-- `__apply_private_op`, `replicatedshare_tensor.py:356-388`, for `add` and `sub` -/
def heldOp (op : BinOp) (p : Held T × Held T) : Py (Held T) := do
  let a ← op.run p.1.1 p.2.1
  let b ← op.run p.1.2 p.2.2
  return (a, b)

/-- `__apply_op`, `mpc_tensor.py:827-862`, for `add` and `sub` of two secrets, `mpc_tensor.py:708-715` -/
def opPrivate (op : BinOp) (x y : RSecret T) : Py (RSecret T) := do
  let held ← (x.held.zip y.held).run (heldOp op)
  let shape ← getShape op x.shape y.shape
  return ⟨held, shape⟩

/-- the products of the two shares with a public operand, `replicatedshare_tensor.py:482-483, 523-526` -/
def heldPublic (op : BinOp) (y : Tensor T) (h : Held T) : Py (Held T) := do
  let a ← op.run h.1 y
  let b ← op.run h.2 y
  return (a, b)

/-- `__apply_public_op`, `mpc_tensor.py:738-748`: products on all shares; sums at `replicatedshare_tensor.py:338-344`, where party 0
changes its first share, party 2 its second and party 1 none -/
def applyPublic (op : BinOp) (x : RSecret T) (y : Operand T) : Py (Trio (Held T)) :=
  match op with
  | .mul => x.held.run (heldPublic .mul y.enc)
  | .matmul => x.held.run (heldPublic .matmul y.enc)
  | op => do
    let a ← op.run x.held.p0.1 y.enc
    let b ← op.run x.held.p2.2 y.enc
    return ⟨(a, x.held.p0.2), x.held.p1, (x.held.p2.1, b)⟩

/-- `truncation_algorithm1`, `aby3.py:70-102`; `rand` is what `random_` draws at a position -/
def truncation (cut : T → T) (rand : List Nat → T) (l : Trio (Tensor T)) (shape : Reported) : Py (Trio (Held T)) := do
  let s ← shape.tuple
  let x ← Tensor.zip (· + ·) l.p1 l.p2
  let y ← Tensor.zip (· - ·) (Grad.map cut x) ⟨s, rand⟩
  return distribute ⟨Grad.map cut l.p0, y, ⟨s, rand⟩⟩

/-- `truncate`, `aby3.py:104-163`, of replicated shares: the first share of party 0 and both of party 1 are fetched -/
def truncate (cut : T → T) (rand : List Nat → T) (x : RSecret T) : Py (RSecret T) := do
  let held ← truncation cut rand ⟨x.held.p0.1, x.held.p1.1, x.held.p1.2⟩ x.shape
  return ⟨held, x.shape⟩

/-- `__apply_op`, `mpc_tensor.py:827-862`, with a public operand, before the truncation -/
def opPublic (op : BinOp) (x : RSecret T) (y : Operand T) : Py (RSecret T) := do
  let held ← applyPublic op x y
  let shape ← getShape op x.shape y.shape
  return ⟨held, shape⟩

/-! ### Products of secrets -/

/-- what is drawn for a product: the numbers that the generators 0, 1 and 2 of the parties give in turn (`session.py:188-217`), for the
product, for the two factors of a triple and for its product -/
structure RDraws (T : Type) where
  mask : Nat → Nat → T
  a : Nat → Nat → T
  b : Nat → Nat → T
  c : Nat → Nat → T

/-- a tensor of the numbers that a generator gives, filled in the order of memory, `mpc_utils.py:84-110` -/
def drawn (gen : Nat → T) (s : List Nat) : Tensor T := ⟨s, fun o => gen (Grad.flat s o)⟩

/-- `multiplication_protocol`, `falcon.py:379-407` -/
def crossTerms (op : BinOp) (x y : Held T) : Py (Tensor T) := do
  let a ← op.run x.1 y.1
  let b ← op.run x.2 y.1
  let c ← op.run x.1 y.2
  sum3 a b c

/-- `compute_zvalue_and_add_mask`, `falcon.py:348-377`, of the party with the given rank; the mask has the shape of the product of the
first shares, and is the difference of the numbers of two generators, `session.py:219-262` -/
def zValue (op : BinOp) (gen : Nat → Nat → T) (rank : Nat) (x y : Held T) : Py (Tensor T) := do
  let z ← crossTerms op x y
  let s ← op.shape x.1.shape y.1.shape
  let m ← Tensor.zip (· - ·) (drawn (gen rank) s) (drawn (gen ((rank + 1) % 3)) s)
  Tensor.zip (· + ·) z m

/-- `mul_semi_honest`, `falcon.py:133-182`: the shares of the product, and its shape -/
def mulSemi (op : BinOp) (gen : Nat → Nat → T) (x y : RSecret T) : Py (Trio (Tensor T) × Reported) := do
  let a ← zValue op gen 0 x.held.p0 y.held.p0
  let b ← zValue op gen 1 x.held.p1 y.held.p1
  let c ← zValue op gen 2 x.held.p2 y.held.p2
  let shape ← getShape op x.shape y.shape
  return (⟨a, b, c⟩, shape)

/-- a random tensor of which every party has two shares, `session.py:264-305` -/
def random (gen : Nat → Nat → T) (s : List Nat) : RSecret T :=
  ⟨⟨(drawn (gen 0) s, drawn (gen 1) s), (drawn (gen 1) s, drawn (gen 2) s), (drawn (gen 2) s, drawn (gen 0) s)⟩, .size s⟩

/-- a triple with replicated shares -/
structure RTriple (T : Type) where
  a : Trio (Held T)
  b : Trio (Held T)
  c : Trio (Held T)

/-- `_get_triples` for replicated shares, `beaver.py:104-139`, for two shapes: the triple is refused when its product is wrong at all
positions -/
def deal [DecidableEq T] (op : BinOp) (d : RDraws T) (xs ys : List Nat) : Py (RTriple T) := do
  let a := random d.a xs
  let b := random d.b ys
  let (c, _) ← mulSemi op d.c a b
  let held := distribute c
  let va ← reconstructSemi a.held
  let vb ← reconstructSemi b.held
  let vc ← reconstructSemi held
  let ab ← op.run va vb
  let wrong ← Tensor.zip (fun x y => decide (x ≠ y)) vc ab
  if (indices wrong.shape).all wrong.at_ then throw .valueError
  return ⟨a.held, b.held, held⟩

/-- `falcon_mask`, `falcon.py:245-269`: the triple is looked up by the shapes of the first shares -/
def falconMask (xs ys : List Nat) (p : (Held T × Held T) × Held T × Held T) : Py (Held T × Held T) := do
  lookUp xs ys p.1.1.1 p.1.2.1
  let e ← heldOp .sub (p.1.1, p.2.1)
  let d ← heldOp .sub (p.1.2, p.2.2)
  return (e, d)

/-- `triple_verification`, `falcon.py:184-243`, of the party with the given rank -/
def verification (op : BinOp) (eps delta : Tensor T) (xs ys : List Nat) (rank : Nat) (z a b c : Held T) : Py (Held T) := do
  lookUp xs ys eps delta
  let epsDelta ← op.run eps delta
  let epsB0 ← op.run eps b.1
  let deltaA0 ← op.run a.1 delta
  let epsB1 ← op.run eps b.2
  let deltaA1 ← op.run a.2 delta
  let s ← heldOp .add (c, (deltaA0, deltaA1))
  let s ← heldOp .add (s, (epsB0, epsB1))
  let s0 ← if rank = 0 then Tensor.zip (· + ·) s.1 epsDelta else pure s.1
  let s1 ← if rank = 2 then Tensor.zip (· + ·) s.2 epsDelta else pure s.2
  heldOp .sub (z, (s0, s1))

/-- `mul_malicious`, `falcon.py:271-346`; the stores are empty before, so that a triple is generated for the reported shapes -/
def mulMalicious [DecidableEq T] (op : BinOp) (d : RDraws T) (x y : RSecret T) : Py (RSecret T) := do
  let xs ← x.shape.tuple
  let ys ← y.shape.tuple
  let (z, shape) ← mulSemi op d.mask x y
  let z := distribute z
  let t ← deal op d xs ys
  let mask ← ((x.held.zip y.held).zip (t.a.zip t.b)).run (falconMask xs ys)
  let eps ← reconstructSemi ⟨mask.p0.1, mask.p1.1, mask.p2.1⟩
  let delta ← reconstructSemi ⟨mask.p0.2, mask.p1.2, mask.p2.2⟩
  let r0 ← verification op eps delta xs ys 0 z.p0 t.a.p0 t.b.p0 t.c.p0
  let r1 ← verification op eps delta xs ys 1 z.p1 t.a.p1 t.b.p1 t.c.p1
  let r2 ← verification op eps delta xs ys 2 z.p2 t.a.p2 t.b.p2 t.c.p2
  let r ← reconstructMalicious ⟨r0, r1, r2⟩
  if (indices r.shape).all fun o => r.at_ o = 0 then return ⟨z, shape⟩ else throw .valueError

/-- `mul_master` before the truncation, `falcon.py:85-127`; the shares `z_0, z_1, z_2` of a product with semi-honest security are at one
party each -/
def mulMaster [DecidableEq T] (security : Security) (op : BinOp) (d : RDraws T) (x y : RSecret T) : Py (Trio (Tensor T) × Reported) :=
  match security with
  | .semiHonest => mulSemi op d.mask x y
  | .malicious => do
    let z ← mulMalicious op d x y
    return (⟨z.held.p0.1, z.held.p1.1, z.held.p1.2⟩, z.shape)

/-- `__apply_op`, `mpc_tensor.py:827-862`, for products of secrets: `mul_master` ends with the truncation, `falcon.py:129` and
`aby3.py:134-158`.  The second component is the product before the truncation: nothing depends on it. -/
def opProduct [DecidableEq T] (security : Security) (cut : T → T) (rand : List Nat → T) (op : BinOp) (d : RDraws T) (x y : RSecret T) :
    Py (RSecret T × Trio (Tensor T)) := do
  let (z, s) ← mulMaster security op d x y
  let held ← truncation cut rand z s
  let shape ← getShape op x.shape y.shape
  return (⟨held, shape⟩, z)

/-! ### Forwarded methods -/

/-- the methods that `ReplicatedSharedTensor` has, `replicatedshare_tensor.py:66-67` and `api.py:217-263`: the pointers to shares have no
other -/
def supported : Method → Bool
  | .t | .T | .unsqueeze _ | .view _ | .sum | .sumDim _ _ | .clone | .repeat _ => true
  | .transpose _ _ | .squeeze | .reshape _ | .flatten | .narrow _ _ _ | .dim => false

/-- `hook_method` and `hook_property` at a party, `replicatedshare_tensor.py:963-1052` -/
def heldMethod (m : Method) (h : Held T) : Py (Held T) := do
  let a ← m.run h.1
  let b ← m.run h.2
  return (a, b)

/-- `hook_method` and `hook_property`, `mpc_tensor.py:983-1066` -/
def hook (m : Method) (x : RSecret T) : Py (RSecret T) := do
  if ¬ supported m then throw .attributeError
  let held ← x.held.run (heldMethod m)
  let s ← x.shape.tuple
  let r ← m.run (⟨s, fun _ => 0⟩ : Tensor Int)
  return ⟨held, .size r.shape⟩

/-! ### Programs -/

/-- a step of a program, `mpc_tensor.py:827-862` and `mpc_tensor.py:983-1066`.  The second component is the secret before the
truncation: nothing depends on it. -/
def step [DecidableEq T] (security : Security) (cut : T → T) (d : RDraws T × (List Nat → T)) (env : List (RSecret T)) :
    Step T → Py (RSecret T × List (Trio (Tensor T)))
  | .both op i j => do
    let x ← pyGet env i
    let y ← pyGet env j
    if op = .add ∨ op = .sub then return (← opPrivate op x y, [])
    else
      let (r, z) ← opProduct security cut d.2 op d.1 x y
      return (r, [z])
  | .public op i y => do
    let x ← pyGet env i
    let r ← opPublic op x y
    if op.truncated then return (← truncate cut d.2 r, [⟨r.held.p0.1, r.held.p1.1, r.held.p1.2⟩]) else return (r, [])
  | .method m i => do
    let x ← pyGet env i
    return (← hook m x, [])

/-- the program of the user (calls of `mpc_tensor.py:827-862` and `mpc_tensor.py:983-1066` in turn); each step has its own draws -/
def program [DecidableEq T] (security : Security) (cut : T → T) : List (Step T × RDraws T × (List Nat → T)) → List (RSecret T) →
    Py (List (RSecret T) × List (Trio (Tensor T)))
  | [], env => .ok (env, [])
  | (st, d) :: prog, env => do
    let r ← step security cut d env st
    let rest ← program security cut prog (env ++ [r.1])
    return (rest.1, r.2 ++ rest.2)

/-! ### Fixed point numbers -/

open FixedPointEncoder (Val)

/-- a program with public operands as the user gives them, in the ring `2^64`: they are encoded by the parties
(`replicatedshare_tensor.py:285-296`), and products are truncated with `shiftPow`, `aby3.py:92-97` -/
def fixed (c : Config) (security : Security) (prog : List (Step Val × RDraws I64 × (List Nat → I64))) (env : List (RSecret I64)) :
    Py (List (RSecret I64) × List (Trio (Tensor I64))) :=
  program security (shiftPow 64 c) (prog.map fun p => (p.1.map c.encoder.encode, p.2)) env

/-- `MPCTensor(secret=x)` of all inputs, `mpc_tensor.py:166-199`: the coordinator encodes them, `mpc_tensor.py:321-323` -/
def fixedInputs (c : Config) (inputs : List (Tensor Val × (Nat → List Nat → I64))) : Py (List (RSecret I64)) :=
  inputs.mapM fun p => ofSecret (.tensor (Grad.map c.encoder.encode p.1)) p.2

end SyMPC.RShape
