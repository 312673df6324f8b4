import Verif.Model.RstShape

/-!
# What a party sees while a program runs on replicated shares with shapes

The programs of `Model/RstShape.lean`, together with what one of the three parties can see.
-/

namespace SyMPC.RShape

open Tensor Shape
open FixedPointEncoder (Val)

variable {T : Type}

/-- what belongs to the party, share or generator with the given number, counted modulo three as at `replicatedshare_tensor.py:955-960` -/
def Trio.at {A : Type} (t : Trio A) (k : Nat) : A :=
  match k % 3 with
  | 0 => t.p0
  | 1 => t.p1
  | _ => t.p2

/-- a tensor as it is stored: its shape and its elements -/
def data (t : Tensor T) : List Nat × List T := (t.shape, (indices t.shape).map t.at_)

/-- what one party can see -/
inductive Seen (T : Type) where
  /-- a secret was shared or computed: its two shares (`replicatedshare_tensor.py:102-105`), and the reported shape -/
  | secret (first second : List Nat × List T) (shape : Reported)
  /-- a product: the numbers of its two generators (`session.py:188-217`), and its masked share of the product (`falcon.py:348-377`) -/
  | product (own next : Nat → T) (z : List Nat × List T)
  /-- with malicious security, `falcon.py:271-346`: its shares of the product and of the triple, the numbers of its two generators for the
  product of the triple, and the opened values -/
  | checked (z a b c : (List Nat × List T) × (List Nat × List T)) (own next : Nat → T) (eps delta : List Nat × List T)
  /-- an exception -/
  | raised (e : PyErr)

/-- the two tensors of party `h` -/
def pair (h : Nat) (t : Trio (Held T)) : (List Nat × List T) × (List Nat × List T) := (data (t.at h).1, data (t.at h).2)

/-- The first part of `mul_malicious`, `falcon.py:271-325`: the product and the triple are computed, and the masked operands are opened
(`mulMalicious` continues from here, see `mulMalicious_opening`). -/
def opening [Add T] [Sub T] [Mul T] [Zero T] [DecidableEq T] (op : BinOp) (d : RDraws T) (x y : RSecret T) :
    Py (RSecret T × RTriple T × Tensor T × Tensor T) := do
  let xs ← x.shape.tuple
  let ys ← y.shape.tuple
  let (z, shape) ← mulSemi op d.mask x y
  let t ← deal op d xs ys
  let mask ← ((x.held.zip y.held).zip (t.a.zip t.b)).run (falconMask xs ys)
  let eps ← reconstructSemi ⟨mask.p0.1, mask.p1.1, mask.p2.1⟩
  let delta ← reconstructSemi ⟨mask.p0.2, mask.p1.2, mask.p2.2⟩
  return (⟨distribute z, shape⟩, t, eps, delta)

/-- what party `h` sees of the verification of a product -/
def shownCheck [Add T] [Sub T] [Mul T] [Zero T] [DecidableEq T] (h : Nat) (op : BinOp) (d : RDraws T) (x y : RSecret T) : List (Seen T) :=
  match opening op d x y with
  | .ok (z, t, eps, delta) => [.checked (pair h z.held) (pair h t.a) (pair h t.b) (pair h t.c) (d.c h) (d.c ((h + 1) % 3)) (data eps) (data delta)]
  | .error _ => []

/-- what party `h` has of a secret -/
def RSecret.show (h : Nat) (x : RSecret T) : Seen T := .secret (data (x.held.at h).1) (data (x.held.at h).2) x.shape

/-- what party `h` draws and computes during a step: only products of secrets need a mask, `mpc_tensor.py:674-715` -/
def shownStep [Add T] [Sub T] [Mul T] [Zero T] [DecidableEq T] (security : Security) (h : Nat) (d : RDraws T) (env : List (RSecret T)) : Step T → List (Seen T)
  | .both op i j =>
    if op = .add ∨ op = .sub then []
    else match env[i]?, env[j]? with
      | some x, some y =>
        (match zValue op d.mask h (x.held.at h) (y.held.at h) with
          | .ok z => [.product (d.mask h) (d.mask ((h + 1) % 3)) (data z)]
          | .error _ => []) ++
        match security with
        | .semiHonest => []
        | .malicious => shownCheck h op d x y
      | _, _ => []
  | _ => []

/-- what party `h` sees of a program of the user (calls of `mpc_tensor.py:827-862` and `mpc_tensor.py:983-1066` in turn), up to the first
exception -/
def shown (c : Config) (security : Security) (h : Nat) : List (Step Val × RDraws I64 × (List Nat → I64)) → List (RSecret I64) → List (Seen I64)
  | [], _ => []
  | (st, d) :: prog, env =>
    shownStep security h d.1 env (st.map c.encoder.encode) ++
      match step security (shiftPow 64 c) d env (st.map c.encoder.encode) with
      | .ok r => r.1.show h :: shown c security h prog (env ++ [r.1])
      | .error e => [.raised e]

/-- what party `h` sees when the inputs are shared (`mpc_tensor.py:166-199`) and the program runs -/
def view (c : Config) (security : Security) (h : Nat) (inputs : List (Tensor Val)) (prog : List (Step Val)) (draws : List (Nat → List Nat → I64))
    (tape : List (RDraws I64 × (List Nat → I64))) : List (Seen I64) :=
  match fixedInputs c (inputs.zip draws) with
  | .ok env => env.map (RSecret.show h) ++ shown c security h (prog.zip tape) env
  | .error e => [.raised e]

end SyMPC.RShape
