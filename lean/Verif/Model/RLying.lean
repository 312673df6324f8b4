import Verif.Model.RstShape

/-!
# Programs on replicated shares with malicious security, when one party lies

The programs of `Model/RstShape.lean` with malicious security.  One party may send other elements than it should, in every message: its
masked shares of products, its masked operands, its part of the verification, what it hands over for the truncation, and what it hands over
for the opening.  Not modelled: tensors of another shape than expected, and silence.
-/

namespace SyMPC.RShape

open Tensor Shape
open FixedPointEncoder (Val)

variable {T : Type}

/-- the elements that the party sends instead of the right ones, if it lies -/
abbrev Lie (T : Type) := Option (List Nat → T)

/-- what the party sends instead of the tensor `t`: a tensor of the same shape with other elements (the elements of a `Tensor` outside of
its shape do not exist in `torch` and are left alone) -/
def Lie.told (l : Lie T) (t : Tensor T) : Tensor T :=
  match l with
  | none => t
  | some f => ⟨t.shape, fun o => if o ∈ indices t.shape then f o else t.at_ o⟩

/-- what the party sends instead of its two shares -/
def toldHeld (l : Lie T × Lie T) (h : Held T) : Held T := (l.1.told h.1, l.2.told h.2)

/-- the lies of a party in one step -/
structure Lies (T : Type) where
  /-- its masked share of the product, `falcon.py:166-173` -/
  z : Lie T := none
  /-- its masked share of the product of the triple, `beaver.py:123-125` -/
  c : Lie T := none
  /-- its masked operands, `falcon.py:319-321` -/
  eps : Lie T × Lie T := (none, none)
  delta : Lie T × Lie T := (none, none)
  /-- its part of the verification, `falcon.py:334-341` -/
  rest : Lie T × Lie T := (none, none)
  /-- what it hands over for the truncation, `aby3.py:140-141` -/
  sent : Lie T × Lie T := (none, none)

/-- something of one party is changed -/
def Trio.change {A : Type} (p : Nat) (f : A → A) (t : Trio A) : Trio A :=
  match p with
  | 0 => ⟨f t.p0, t.p1, t.p2⟩
  | 1 => ⟨t.p0, f t.p1, t.p2⟩
  | _ => ⟨t.p0, t.p1, f t.p2⟩

variable [Add T] [Sub T] [Mul T] [Zero T] [DecidableEq T]

/-- `_get_triples`, `beaver.py:104-139`, as `deal`, when party `p` lies -/
def dealLying (p : Nat) (l : Lies T) (op : BinOp) (d : RDraws T) (xs ys : List Nat) : Py (RTriple T) := do
  let a := random d.a xs
  let b := random d.b ys
  let (c, _) ← mulSemi op d.c a b
  let held := distribute (c.change p l.c.told)
  let va ← reconstructSemi a.held
  let vb ← reconstructSemi b.held
  let vc ← reconstructSemi held
  let ab ← op.run va vb
  let wrong ← Tensor.zip (fun x y => decide (x ≠ y)) vc ab
  if (indices wrong.shape).all wrong.at_ then throw .valueError
  return ⟨a.held, b.held, held⟩

/-- `mul_malicious`, `falcon.py:271-346`, as `mulMalicious`, when party `p` lies -/
def mulLying (p : Nat) (l : Lies T) (op : BinOp) (d : RDraws T) (x y : RSecret T) : Py (RSecret T) := do
  let xs ← x.shape.tuple
  let ys ← y.shape.tuple
  let (z, shape) ← mulSemi op d.mask x y
  let z := distribute (z.change p l.z.told)
  let t ← dealLying p l op d xs ys
  let mask ← ((x.held.zip y.held).zip (t.a.zip t.b)).run (falconMask xs ys)
  let mask := mask.change p fun m => (toldHeld l.eps m.1, toldHeld l.delta m.2)
  let eps ← reconstructSemi ⟨mask.p0.1, mask.p1.1, mask.p2.1⟩
  let delta ← reconstructSemi ⟨mask.p0.2, mask.p1.2, mask.p2.2⟩
  let r0 ← verification op eps delta xs ys 0 z.p0 t.a.p0 t.b.p0 t.c.p0
  let r1 ← verification op eps delta xs ys 1 z.p1 t.a.p1 t.b.p1 t.c.p1
  let r2 ← verification op eps delta xs ys 2 z.p2 t.a.p2 t.b.p2 t.c.p2
  let r ← reconstructMalicious ((⟨r0, r1, r2⟩ : Trio (Held T)).change p (toldHeld l.rest))
  if (indices r.shape).all fun o => r.at_ o = 0 then return ⟨z, shape⟩ else throw .valueError

/-- `truncate`, `aby3.py:104-163`, when party `p` lies about its shares -/
def truncateLying (p : Nat) (l : Lies T) (cut : T → T) (rand : List Nat → T) (x : RSecret T) : Py (RSecret T) :=
  truncate cut rand { x with held := x.held.change p (toldHeld l.sent) }

/-- `__apply_op`, `mpc_tensor.py:827-862`, for products of secrets, as `opProduct`, when party `p` lies -/
def opProductLying (p : Nat) (l : Lies T) (cut : T → T) (rand : List Nat → T) (op : BinOp) (d : RDraws T) (x y : RSecret T) : Py (RSecret T) := do
  let z ← mulLying p l op d x y
  let r ← truncateLying p l cut rand z
  let shape ← getShape op x.shape y.shape
  return { r with shape }

/-- a step of a program, `mpc_tensor.py:827-862` and `mpc_tensor.py:983-1066`, when party `p` lies: sums and methods are local -/
def stepLying (p : Nat) (l : Lies T) (cut : T → T) (d : RDraws T × (List Nat → T)) (env : List (RSecret T)) : Step T → Py (RSecret T)
  | .both op i j => do
    let x ← pyGet env i
    let y ← pyGet env j
    if op = .add ∨ op = .sub then opPrivate op x y else opProductLying p l cut d.2 op d.1 x y
  | .public op i y => do
    let x ← pyGet env i
    let r ← opPublic op x y
    if op.truncated then truncateLying p l cut d.2 r else return r
  | .method m i => do
    let x ← pyGet env i
    hook m x

/-- the program of the user (calls of `mpc_tensor.py:827-862` and `mpc_tensor.py:983-1066` in turn), when party `p` lies; each step has its
own draws and lies -/
def programLying (p : Nat) (cut : T → T) : List (Step T × (RDraws T × (List Nat → T)) × Lies T) → List (RSecret T) → Py (List (RSecret T))
  | [], env => .ok env
  | (st, d, l) :: prog, env => do
    let r ← stepLying p l cut d env st
    programLying p cut prog (env ++ [r])

/-- `reconstruct`, `mpc_tensor.py:359-383`, with malicious security, when party `p` lies about its shares -/
def reconstructLying (p : Nat) (l : Lie T × Lie T) (x : RSecret T) : Py (Tensor T) :=
  reconstruct .malicious { x with held := x.held.change p (toldHeld l) }

omit [Add T] [Sub T] [Mul T] [Zero T] [DecidableEq T] in
/-- a program on fixed point numbers in the ring `2^64`, as `fixed`, and the opening of one of its secrets, when party `p` lies -/
def openLying (c : Config) (p : Nat) (prog : List (Step Val × (RDraws I64 × (List Nat → I64)) × Lies I64)) (i : Nat) (last : Lie I64 × Lie I64)
    (env : List (RSecret I64)) : Py (Tensor I64) := do
  let env ← programLying p (shiftPow 64 c) (prog.map fun q => (q.1.map c.encoder.encode, q.2)) env
  let x ← pyGet env i
  reconstructLying p last x

end SyMPC.RShape
