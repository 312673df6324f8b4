import Verif.Spec.Program
import Verif.Model.RProgram

/-!
# How far the results of a program with fixed point numbers may be from the true ones

The programs of `Model/Program.lean` on rational numbers, with a bound for the error of every element.  `S` is the scale of the
encoder, `t` how many quanta `1 / S` the division by the scale after a product may be off.
-/

namespace SyMPC.Program

open FixedPointEncoder (Val)

variable {ι : Type}

/-- a number and how far an approximation may be from it -/
structure Estimate where
  num : ℚ
  err : ℚ

instance : Zero Estimate := ⟨⟨0, 0⟩⟩

/-- the number that a public value stands for -/
def numOf : Val → ℚ
  | .int z => z
  | .long t => t.toInt
  | .float q => q

/-- integers are encoded exactly, other numbers are rounded to a multiple of `1 / S` -/
def given (S : ℚ) (v : Val) : Estimate :=
  match v with
  | .float q => ⟨q, 1 / S⟩
  | v => ⟨numOf v, 0⟩

/-- sums and differences add up the errors -/
def Estimate.lin (o : MPCTensor.LinOp) (a b : Estimate) : Estimate := ⟨LinOp.den o a.num b.num, a.err + b.err⟩

/-- a product of approximations, rounded -/
def Estimate.mul (S t : ℚ) (a b : Estimate) : Estimate :=
  ⟨a.num * b.num, |a.num| * b.err + |b.num| * a.err + a.err * b.err + t / S⟩

/-- the new tensor of a statement -/
def estimateCmd (S t : ℚ) (as : List (ι → Estimate)) : Cmd (ι → Val) (ι → I64) → ι → Estimate
  | .secret v => fun k => given S (v k)
  | .lin o i j => fun k => (as.getD i 0 k).lin o (as.getD j 0 k)
  | .linPublic o i v => fun k => (as.getD i 0 k).lin o (given S (v k))
  | .mulPublic i v => fun k => (as.getD i 0 k).mul S t (given S (v k))
  | .mul i j => fun k => (as.getD i 0 k).mul S t (as.getD j 0 k)
  | .method _ _ => 0

/-- all tensors of a program -/
def estimate (S t : ℚ) : List (ι → Estimate) → List (Cmd (ι → Val) (ι → I64)) → List (ι → Estimate)
  | as, [] => as
  | as, cmd :: cs => estimate S t (as ++ [estimateCmd S t as cmd]) cs

/-- the approximations have room in 64 bits -/
def Estimate.Room (S : ℚ) (a : Estimate) : Prop := (|a.num| + a.err) * S < 2 ^ 63

/-- the products before the division by the scale have room in 64 bits -/
def ProductRoom (S : ℚ) (a b : Estimate) : Prop := ((|a.num| + a.err) * S) * ((|b.num| + b.err) * S) < 2 ^ 63

/-- what a statement computes has room -/
def RoomCmd (S : ℚ) (as : List (ι → Estimate)) : Cmd (ι → Val) (ι → I64) → Prop
  | .secret v => ∀ k, (given S (v k)).Room S
  | .lin o i j => ∀ k, ((as.getD i 0 k).lin o (as.getD j 0 k)).Room S
  | .linPublic o i v => ∀ k, (given S (v k)).Room S ∧ ((as.getD i 0 k).lin o (given S (v k))).Room S
  | .mulPublic i v => ∀ k, (given S (v k)).Room S ∧ ProductRoom S (as.getD i 0 k) (given S (v k))
  | .mul i j => ∀ k, ProductRoom S (as.getD i 0 k) (as.getD j 0 k)
  | .method _ _ => False

/-- what a program computes has room -/
def Room (S t : ℚ) : List (ι → Estimate) → List (Cmd (ι → Val) (ι → I64)) → Prop
  | _, [] => True
  | as, cmd :: cs => RoomCmd S as cmd ∧ Room S t (as ++ [estimateCmd S t as cmd]) cs

end SyMPC.Program

namespace SyMPC.RProgram

variable {ι P : Type}

/-- The two summands of a product that are divided by the scale do not leave the range of 64 bit integers when they are added. -/
def NoWrap (e : Event (ι → I64)) : Prop :=
  ∀ k, -2 ^ 63 ≤ (e.coordinator.getD 0 0 k).toInt + (e.coordinator.getD 1 0 k + e.coordinator.getD 2 0 k).toInt ∧
    (e.coordinator.getD 0 0 k).toInt + (e.coordinator.getD 1 0 k + e.coordinator.getD 2 0 k).toInt < 2 ^ 63

/-- so for all products of a program -/
def NoWraps : List (Program.Cmd P (ι → I64)) → List (Event (ι → I64)) → Prop
  | [], _ => True
  | .secret _ :: cs, L => NoWraps cs L.tail
  | .mul _ _ :: cs, L => (∀ e ∈ L.head?, NoWrap e) ∧ NoWraps cs L.tail
  | .mulPublic _ _ :: cs, L => (∀ e ∈ L.head?, NoWrap e) ∧ NoWraps cs L.tail
  | .lin .. :: cs, L => NoWraps cs L
  | .linPublic .. :: cs, L => NoWraps cs L
  | .method .. :: cs, L => NoWraps cs L

end SyMPC.RProgram
