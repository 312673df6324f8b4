import Verif.Model.Algo
import Verif.Model.Derived
import Verif.Model.Fss
import Verif.Model.Spdz

/-!
# The operators of a two-party session with function secret sharing

The operators of `src/sympc/tensor/mpc_tensor.py` on tensors with `n` elements, for the algorithms of `Model/Algo.lean`.
Products take Beaver triples, comparisons take keys of function secret sharing; both are kept in the parties' stores.

Not in the code: two events that make a result wrong are recorded by ending the computation with `.inr ()`.  They are a
share addition that leaves the ring before a division of the shares, and an output `-2^31` of function secret sharing.
-/

namespace SyMPC

open FixedPointEncoder (Val)

/-- the stores of the parties and the number of comparisons so far -/
structure MState (Key : Type) where
  triples : World Nat (fun n => Fin n → I64) (fun n => Fin n → I64) fun n => Fin n → I64
  keys : FssWorld Key
  round : Nat

/-- A session with everything that is drawn at random: the triples, the keys of the comparison number `r`, and the share
of a public operand of a comparison (`mpc_tensor.py:976-980`). -/
structure Machine (Key : Type) where
  env : Env
  session : Session
  sycret : Sycret Key
  triples : (n : Nat) → Nat → TripleRand (Fin n → I64) (Fin n → I64) (Fin n → I64)
  keygen : Nat → Nat → List (Key × Key)
  draw : Nat → Nat → I64

/-- computations with the stores; `.inr ()` marks one of the two recorded events -/
abbrev MachineM (Key : Type) := StateT (MState Key) (Except (PyErr ⊕ Unit))

/-- the secrets: tensors with `n` elements -/
abbrev MX (n : Nat) := MPCTensor (Fin n → I64)

/-- a Python number, as the encoder takes it -/
def pubVal (c : ℚ) : Val := if c.den = 1 then .int c.num else .float c

/-- `res_share.tensor //= d` for every element of a tensor, `spdz.py:171-176, 204-209` -/
def divTensor {n : Nat} (d : Nat) (z : Fin n → I64) : Fin n → I64 := fun j => floordiv (z j) (BitVec.ofNat 64 d)

/-- Two shares whose sum leaves the range of 64 bit integers at some position. -/
def wrapsAt {n : Nat} (shares : List (ShareTensor (Fin n → I64))) : Bool :=
  match shares with
  | [a, b] => decide (∃ i, (a.tensor i).toInt + (b.tensor i).toInt < -2 ^ 63 ∨ 2 ^ 63 ≤ (a.tensor i).toInt + (b.tensor i).toInt)
  | _ => false

namespace Machine

variable {Key : Type} (M : Machine Key) {n k : Nat}

/-- a call without access to the stores -/
def lift {α : Type} (p : Py α) : MachineM Key α := fun w =>
  match p with
  | .ok a => .ok (a, w)
  | .error e => .error (.inl e)

/-- the recorded events -/
def event {α : Type} : MachineM Key α := fun _ => .error (.inr ())

/-- the scale of the session's encoder -/
def scale : Nat := M.session.config.encoderBase ^ M.session.config.encoderPrecision

/-- `public_divide` of two parties, `spdz.py:203-209`. -/
def divide (x : MX n) (d : Nat) : MachineM Key (MX n) :=
  if wrapsAt x.shares then event
  else lift (MPCTensor.ofShares x.session (x.shares.map (ShareTensor.div (divTensor d))))

/-- `x * y` with a public tensor, `mpc_tensor.py:736-755, 799-813`: product of the shares and division by the scale. -/
def mulPublic (x : MX n) (y : Fin n → Val) : MachineM Key (MX n) := do
  let z ← lift (MPCTensor.applyPublicMul M.env (· * ·) (divTensor M.scale) x y)
  divide z M.scale

/-- `x * y` of two secrets: `mul_master`, `spdz.py:36-96`. -/
def mulPrivate (x y : MX n) : MachineM Key (MX n) := fun w =>
  let run (trunc : (k : Nat) → Config → (Fin k → I64) → (Fin k → I64)) :=
    mulMaster (Kw := Unit) M.env (fun _ _ a b => a * b) trunc M.triples n () w.triples x y
  match run (fun _ c => divTensor (c.encoderBase ^ c.encoderPrecision)), run (fun _ _ z => z) with
  | .ok (out, t), .ok (raw, _) => if wrapsAt raw.result.shares then .error (.inr ()) else .ok (out.result, { w with triples := t })
  | .error e, _ => .error (.inl e)
  | _, .error e => .error (.inl e)

/-- `protocol.le(x, y)`, `fss.py:118-180, 219-229`. -/
def le (x y : MX n) : MachineM Key (MX n) := fun w =>
  let keys := M.keygen w.round n
  match fssOp M.sycret M.env .comp keys x y w.keys with
  | (.ok out, ks) =>
    if ∃ i : Fin n, ∃ p ∈ keys[i.val]?, ¬ (toInt32 (M.sycret.eval .comp 0 (out.opened i) p.1) ≠ -2 ^ 31 ∧
        toInt32 (M.sycret.eval .comp 1 (out.opened i) p.2) ≠ -2 ^ 31) then .error (.inr ())
    else .ok (out.result, { w with keys := ks, round := w.round + 1 })
  | (.error e, _) => .error (.inl e)

/-- `x + one` with `one = fp_encoder.decode(1)`, `mpc_tensor.py:1106-1111, 1124-1130` -/
def addQuantum (x : MX n) : MachineM Key (MX n) :=
  lift (MPCTensor.applyPublicLin M.env .add x fun _ : Fin n => quantum M.session.config)

/-- `__check_or_convert` of a public number, `mpc_tensor.py:976-980`.  Simplification: the scalar is broadcast when it is
shared instead of when it is subtracted, with the same share at every position. -/
def convert (n : Nat) (c : ℚ) : MachineM Key (MX n) := fun w =>
  lift (MPCTensor.ofSecret M.env M.session (fun _ : Fin n => pubVal c) fun r _ => M.draw w.round r) w

/-- `helper_max_pool2d_reshape`, `functional.py:173-234`, on one share: padded places hold -25 at the party with rank 0 and 0 at
the other one.  Simplification: the code forgets the session of the share here, the model keeps it. -/
def padShare (σ : Fin k → Option (Fin n)) (x : ShareTensor (Fin n → I64)) : Py (ShareTensor (Fin k → I64)) :=
  match x.sessionUuid.bind M.env with
  | none => .error .attributeError
  | some p => .ok (x.hookMethod fun w j => (σ j).elim (if p.rank = 0 then BitVec.ofInt 64 (-25) else 0) w)

/-- `_reshape_max_pool2d`, `functional.py:144-170`. -/
def padTensor (σ : Fin k → Option (Fin n)) (x : MX n) : Py (MX k) := do
  let shares ← x.shares.mapM (M.padShare σ)
  MPCTensor.ofShares x.session shares

/-- The operators.  The line numbers are those of `mpc_tensor.py`. -/
def ops : SecretOps (MachineM Key) MX ℚ where
  raise e := lift (.error e)
  add x y := lift (MPCTensor.applyPrivateLin (P := Empty) M.env .add x y)
  sub x y := lift (MPCTensor.applyPrivateLin (P := Empty) M.env .sub x y)
  mul x y := M.mulPrivate x y
  addP {n} x c := lift (MPCTensor.applyPublicLin M.env .add x fun _ : Fin n => pubVal c)
  subP {n} x c := lift (MPCTensor.applyPublicLin M.env .sub x fun _ : Fin n => pubVal c)
  -- 441-450
  rsubP {n} c x := do
    let z ← lift (MPCTensor.applyPublicLin M.env .sub x fun _ : Fin n => pubVal c)
    M.mulPublic z fun _ => .int (-1)
  mulP x c := M.mulPublic x fun _ => pubVal c
  divP x d := divide x d
  -- 1113-1130
  gt x y := do
    let y ← M.addQuantum y
    M.le y x
  gtP x c := do
    let y ← M.convert _ c
    let y ← M.addQuantum y
    M.le y x
  -- 1095-1111
  ltP x c := do
    let y ← M.convert _ c
    let x ← M.addQuantum x
    M.le x y
  -- 1082-1093
  geP x c := do
    let y ← M.convert _ c
    M.le y x
  mulT x t := M.mulPublic x fun i => pubVal (t i)
  -- 1021-1067
  view σ x := lift (MPCTensor.hookMethod (fun w j => w (σ j)) x)
  pad σ x := lift (M.padTensor σ x)
  sums f x := lift (MPCTensor.hookMethod (fun w j => ((f j).map w).sum) x)
  -- 359-384, decoded as an exact number
  reconstruct x := do
    let v ← lift x.reconstruct
    return fun i => (v i).toInt / M.scale

end Machine

end SyMPC
