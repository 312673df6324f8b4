import Verif.Model.Approx
import Verif.Model.Share

/-!
# Max pooling

`src/sympc/module/nn/functional.py:84-310`.  `relu` (`functional.py:38-51`) is `reluS` in `Model/Approx.lean`.
-/

namespace SyMPC

/-! ## Arguments -/

/-- `Union[int, Tuple[int, int]]`; negative numbers are not modelled -/
inductive Size where
  | one (n : Nat)
  | many (l : List Nat)

/-- an integer stands for both dimensions, `functional.py:108-109` and similar lines -/
def Size.list : Size → List Nat
  | .one n => [n, n]
  | .many l => l

/-- the checked arguments -/
structure PoolArgs where
  kh : Nat
  kw : Nat
  sh : Nat
  sw : Nat
  ph : Nat
  pw : Nat
  deriving DecidableEq

/-- the checks of padding and dilation, `functional.py:123-141`; `padding[1]` is read only if `padding[0]` is accepted -/
def poolPadding (kh kw sh sw : Nat) (padding dilation : List Nat) : Py PoolArgs := do
  let ph ← pyGet padding 0
  if ph > kh then .error .valueError
  let pw ← pyGet padding 1
  if pw > kw then .error .valueError
  if padding.length ≠ 2 then .error .valueError
  if dilation.length ≠ 2 then .error .valueError
  if dilation ≠ [1, 1] then .error .valueError
  return ⟨kh, kw, sh, sw, ph, pw⟩

/-- `_sanity_check_max_pool2d`, `functional.py:84-141` -/
def poolArgs (kernel : Size) (stride : Option Size) (padding dilation : Size) : Py PoolArgs :=
  match kernel.list with
  | [kh, kw] =>
    match (stride.map Size.list).getD [kh, kw] with
    | [sh, sw] => poolPadding kh kw sh sw padding.list dilation.list
    | _ => .error .valueError
  | _ => .error .valueError

/-- number of windows along a dimension of length `n`, `functional.py:212-216, 300-303` -/
def poolOut (n k s p : Nat) : Nat := (n + 2 * p - k) / s + 1

/-! ## The windows -/

/-- the last one of two dimensions -/
def Layout.last (a d : Nat) : Layout (a * d) where
  rows := a
  len := d
  pos := fun r j => finProdFinEquiv (r, j)
  row := fun p => (finProdFinEquiv.symm p).1
  col := fun p => (finProdFinEquiv.symm p).2
  pos_row_col := fun p => by simp only [Prod.mk.eta, Equiv.apply_symm_apply]
  row_pos := fun r j => by simp
  col_pos := fun r j => by simp

/-- The place in the input (`b` images of size `h` x `w`) of place `(u, v)` of window `(i, j)` of image `r`; `none` is padding.
`np.pad` and `as_strided`, `functional.py:196-228`. -/
def poolPlace (a : PoolArgs) {b h w : Nat} (r : Fin b) (i j u v : Nat) : Option (Fin (b * h * w)) :=
  let y := i * a.sh + u
  let z := j * a.sw + v
  if hp : (a.ph ≤ y ∧ y - a.ph < h) ∧ (a.pw ≤ z ∧ z - a.pw < w) then
    some (finProdFinEquiv (finProdFinEquiv (r, ⟨y - a.ph, hp.1.2⟩), ⟨z - a.pw, hp.2.2⟩))
  else none

/-- the windows, reshaped to `(-1, kh, kw)`, `functional.py:219-230` -/
def poolWindows (a : PoolArgs) (b h w : Nat) (q : Fin (b * poolOut h a.kh a.sh a.ph * poolOut w a.kw a.sw a.pw * a.kh * a.kw)) :
    Option (Fin (b * h * w)) :=
  let (q, v) := finProdFinEquiv.symm q
  let (q, u) := finProdFinEquiv.symm q
  let (q, j) := finProdFinEquiv.symm q
  let (r, i) := finProdFinEquiv.symm q
  poolPlace a r i j u v

variable {m : Type → Type} [Monad m] {X : Nat → Type} {F : Type} {n : Nat}

/-- `x.max(dim, one_hot=True)`, `static.py:255-286`: the maxima and their places as zeros and ones. -/
def maxHot [IntCast F] (O : SecretOps m X F) (L : Layout n) (x : X n) : m (X L.rows × X n) := do
  let hot ← argmaxHot O L L.len x
  let prod ← O.mul hot x
  let mx ← O.sums (fun r => (List.finRange L.len).map (L.pos r)) prod
  return (mx, hot)

/-- `max_pool2d` after the checks, `functional.py:293-310`, with `return_indices=True`: the maxima, and for each window the place of
its maximum as zeros and a one. -/
def poolCore [IntCast F] (O : SecretOps m X F) (a : PoolArgs) (b h w : Nat) (x : X (b * h * w)) :
    m (X (b * poolOut h a.kh a.sh a.ph * poolOut w a.kw a.sw a.pw) ×
      X (b * poolOut h a.kh a.sh a.ph * poolOut w a.kw a.sw a.pw * a.kh * a.kw)) := do
  let x ← O.pad (poolWindows a b h w) x
  let (resColumns, columns) ← maxHot O (Layout.last _ a.kw) x
  let (res, rows) ← maxHot O (Layout.last _ a.kh) resColumns
  let rows ← O.view (fun q => (finProdFinEquiv.symm q).1) rows
  let indices ← O.mul columns rows
  return (res, indices)

/-- `max_pool2d`, `functional.py:237-310` without autograd, on `b` images of size `h` x `w` (the leading dimensions taken
together). -/
def maxPool2d [IntCast F] (O : SecretOps m X F) (parties : Nat) (kernel : Size) (stride : Option Size) (padding dilation : Size)
    (b h w : Nat) (x : X (b * h * w)) :
    m (Σ a : PoolArgs, X (b * poolOut h a.kh a.sh a.ph * poolOut w a.kw a.sw a.pw) ×
      X (b * poolOut h a.kh a.sh a.ph * poolOut w a.kw a.sw a.pw * a.kh * a.kw)) :=
  if parties ≠ 2 then O.raise .valueError
  else match poolArgs kernel stride padding dilation with
    | .error e => O.raise e
    | .ok a =>
      if h + 2 * a.ph < a.kh ∨ w + 2 * a.pw < a.kw then O.raise .valueError
      else if a.sh = 0 ∨ a.sw = 0 then O.raise .zeroDivision
      else do
        let r ← poolCore O a b h w x
        return ⟨a, r⟩

end SyMPC
