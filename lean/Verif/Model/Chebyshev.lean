import Verif.Model.Shape
import Mathlib.Analysis.SpecialFunctions.Trigonometric.Basic

/-!
# `tanh` by Chebyshev polynomials on tensors

`src/sympc/approximations/tanh.py`.  The values are real numbers: the rounding of the shares and of float32 is left out, and the
secret operations are taken to act on the values.  What is kept is the computation of the coefficients and the handling of the
dimensions.
-/

namespace SyMPC.Chebyshev

open Tensor

/-- `chebyshev_series`, `tanh.py:83-103` -/
noncomputable def chebyshevSeries (func : ℝ → ℝ) (width : ℝ) (terms : Nat) : List ℝ :=
  let nRange := List.range terms
  let x := nRange.map fun (k : Nat) => width * Real.cos (((k : ℝ) + 1 / 2) * Real.pi / terms)
  let y := x.map func
  nRange.map fun (j : Nat) =>
    2 / terms * (List.zipWith (fun v (k : Nat) => v * Real.cos (((j : ℝ) * ((k : ℝ) + 1 / 2)) * Real.pi / terms)) y nRange).sum

/-- the slice `[1::2]` of a list -/
def everySecond : List ℝ → List ℝ
  | _ :: b :: l => b :: everySecond l
  | _ => []

/-- the coefficients in `tanh`, `tanh.py:49` -/
noncomputable def tanhCoeffs : List ℝ := everySecond (chebyshevSeries Real.tanh 1 10)

/-- the loop of `_chebyshev_polynomials`, `tanh.py:130-132` -/
def polyLoop (y : Tensor ℝ) : Nat → Tensor ℝ → Tensor ℝ → Py (List (Tensor ℝ))
  | 0, _, _ => .ok []
  | k + 1, p0, p1 => do
    let t ← zip (· * ·) y p1
    let p2 ← zip (· - ·) t p0
    let rest ← polyLoop y k p1 p2
    return p2 :: rest

/-- `_chebyshev_polynomials`, `tanh.py:106-134` -/
def polynomials (x : Tensor ℝ) (terms : Nat) : Py (Tensor ℝ) :=
  if terms % 2 ≠ 0 ∨ terms < 6 then .error .valueError
  else do
    let x4 : Tensor ℝ := ⟨x.shape, fun i => 4 * x.at_ i⟩
    let xx ← zip (· * ·) x4 x
    let y : Tensor ℝ := ⟨xx.shape, fun i => xx.at_ i - 2⟩
    let z : Tensor ℝ := ⟨y.shape, fun i => y.at_ i - 1⟩
    let p1 ← zip (· * ·) z x
    let rest ← polyLoop y (terms / 2 - 2) x p1
    stack (x :: p1 :: rest) 0

/-- torch's `squeeze(dim=d)`: the dimension disappears if its size is 1 -/
def squeezeDim (d : Nat) (x : Tensor ℝ) : Py (Tensor ℝ) :=
  match x.shape[d]? with
  | none => .error .indexError
  | some k => if k = 1 then .ok ⟨x.shape.eraseIdx d, fun i => x.at_ (i.insertIdx d 0)⟩ else .ok x

/-- torch's `matmul` of a tensor with at least one dimension with a vector: the products along the last dimension are added up -/
def matmulVec (x : Tensor ℝ) (v : List ℝ) : Py (Tensor ℝ) :=
  if x.shape.getLast? = some v.length then
    .ok ⟨x.shape.dropLast, fun i => ((List.range v.length).map fun l => x.at_ (i ++ [l]) * v.getD l 0).sum⟩
  else .error .runtimeError

/-- `relu` on values, `functional.py:38-51` -/
noncomputable def relu (a : ℝ) : ℝ := a * if a ≥ 0 then 1 else 0

/-- `hardtanh` with its default limits, `tanh.py:60-79` -/
noncomputable def hardtanh (x : Tensor ℝ) : Tensor ℝ :=
  ⟨x.shape, fun i => relu (x.at_ i - -1) - relu (x.at_ i - 1) + -1⟩

/-- `tanh` with `method="chebyshev"`, `tanh.py:47-55` -/
noncomputable def tanhTensor (x : Tensor ℝ) : Py (Tensor ℝ) := do
  let polys ← polynomials x 10
  let flipped ← (Shape.Method.unsqueeze (-1)).run polys
  let flipped ← Shape.Method.T.run flipped
  let flipped ← squeezeDim 0 flipped
  let out ← matmulVec flipped tanhCoeffs
  return hardtanh out

end SyMPC.Chebyshev
