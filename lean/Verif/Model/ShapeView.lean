import Verif.Model.ShapeFixed

/-!
# What the parties see while a program with shapes runs

The programs of `Model/ShapeFixed.lean`, together with what all parties but one can see.
-/

namespace SyMPC.Shape

open Tensor
open FixedPointEncoder (Val)

variable {T : Type}

/-- The first part of `mul_master`, `spdz.py:36-92`: the triple is dealt, looked up by every party, and the masked operands are opened
(`mulMaster` continues from here, see `mulMaster_opening`). -/
def opening [Add T] [Sub T] [Mul T] [Zero T] (op : BinOp) (x y : Secret T) (d : Draws T) : Py (Tensor T × Tensor T × Triple T) := do
  let xs ← x.shape.tuple
  let ys ← y.shape.tuple
  let t ← deal op x.shares.length d xs ys
  let _ ← (x.shares.zip y.shares).mapM fun p => lookUp xs ys p.1 p.2
  let epsShares ← (x.shares.zip t.a).mapM fun p => BinOp.sub.run p.1 p.2
  let deltaShares ← (y.shares.zip t.b).mapM fun p => BinOp.sub.run p.1 p.2
  let eps ← sumShares epsShares
  let delta ← sumShares deltaShares
  return (eps, delta, t)

/-- what all parties but one can see, together with the caller -/
inductive Seen (T : Type) where
  /-- a secret was shared or computed: their shares, and the reported shape -/
  | secret (shares : List (Tensor T)) (shape : Reported)
  /-- a product: the opened values (`spdz.py:81-92`), and their parts of the triple (`spdz.py:116-118`) -/
  | product (eps delta : Tensor T) (a b c : List (Tensor T))
  /-- an exception -/
  | raised (e : PyErr)

/-- the secret without the share of party `h` -/
def Secret.hide (h : Nat) (x : Secret T) : Seen T := .secret (x.shares.eraseIdx h) x.shape

/-- what is opened and dealt during a step: only products of secrets open anything, `mpc_tensor.py:674-715` -/
def Step.shown [Add T] [Sub T] [Mul T] [Zero T] (h : Nat) (d : Draws T) (env : List (Secret T)) : Step T → List (Seen T)
  | .both op i j =>
    if op = .add ∨ op = .sub then []
    else match env[i]?, env[j]? with
      | some x, some y =>
        match opening op x y d with
        | .ok (eps, delta, t) => [.product eps delta (t.a.eraseIdx h) (t.b.eraseIdx h) (t.c.eraseIdx h)]
        | .error _ => []
      | _, _ => []
  | _ => []

/-- what all parties but `h` see of a program of the user (calls of `mpc_tensor.py:827-862` and `mpc_tensor.py:983-1066` in turn), up to the
first exception -/
def shown {W : Type} (c : Config) (cut : Cut W) (h : Nat) : List (Step Val × Draws I64 × W) → List (Secret I64) → List (Seen I64)
  | [], _ => []
  | (st, d) :: prog, env =>
    (st.map c.encoder.encode).shown h d.1 env ++
      match st.fixed c cut d env with
      | .ok r => r.1.hide h :: shown c cut h prog (env ++ [r.1])
      | .error e => [.raised e]

/-- what all parties but `h` see when `n` parties share the inputs (`mpc_tensor.py:166-193`) and run the program -/
def view {W : Type} (c : Config) (cut : Cut W) (n h : Nat) (inputs : List (Tensor Val)) (prog : List (Step Val))
    (draws : List (Nat → List Nat → I64)) (tape : List (Draws I64 × W)) : List (Seen I64) :=
  match fixedInputs c n (inputs.zip draws) with
  | .ok env => env.map (Secret.hide h) ++ shown c cut h (prog.zip tape) env
  | .error e => [.raised e]

end SyMPC.Shape
