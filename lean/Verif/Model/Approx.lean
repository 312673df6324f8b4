import Verif.Model.Algo

/-!
# Approximations of functions, activations, pooling

`src/sympc/approximations`, `src/sympc/module/nn/functional.py`, `MPCTensor.pow`

Written over the operators of `Model/Algo.lean`, like the other algorithms.  `c * x` is `x * c`, `c + x` is `x + c` and `c - x`
is `rsub` (`mpc_tensor.py:1168-1179`).  Simplification: decimal constants are exact numbers, not floats.
-/

namespace SyMPC

variable {m : Type → Type} [Monad m] {X : Nat → Type} {F : Type} [Field F] {n : Nat}

/-! ## powers -/

/-- A Python number or a secret. -/
inductive Num (X : Nat → Type) (F : Type) (n : Nat) where
  | pub (c : F)
  | sec (x : X n)

/-- `a * x` of a number and a secret -/
def Num.mulSec (O : SecretOps m X F) (a : Num X F n) (x : X n) : m (X n) :=
  match a with
  | .pub c => O.mulP x c
  | .sec y => O.mul y x

/-- `x + a` of a secret and a number -/
def Num.addTo (O : SecretOps m X F) (x : X n) (a : Num X F n) : m (X n) :=
  match a with
  | .pub c => O.addP x c
  | .sec y => O.add x y

/-- `a * c` with a public number -/
def Num.mulPub (O : SecretOps m X F) (a : Num X F n) (c : F) : m (Num X F n) :=
  match a with
  | .pub b => return .pub (c * b)
  | .sec y => do return .sec (← O.mulP y c)

/-- the `if` in the loop of `pow`, `mpc_tensor.py:645-647` -/
def powRound (O : SecretOps m X F) (power : Nat) (result : Num X F n) (base : X n) : m (Num X F n) :=
  if power % 2 = 1 then do
    let y ← result.mulSec O base
    return .sec y
  else return result

/-- the loop of `pow`, `mpc_tensor.py:642-652` -/
def powLoopS (O : SecretOps m X F) (power : Nat) (result : Num X F n) (base : X n) : m (Num X F n) :=
  if h : power = 0 then return result
  else do
    let result ← powRound O power result base
    let base' ← O.mul base base
    powLoopS O (power / 2) result base'
termination_by power
decreasing_by exact Nat.div_lt_self (Nat.pos_of_ne_zero h) (by decide)

/-- `pow`, `mpc_tensor.py:621-652`; a power of 0 gives the Python number 1. -/
def powS (O : SecretOps m X F) (x : X n) (power : Int) : m (Num X F n) :=
  if power < 0 then O.raise .runtimeError else powLoopS O power.toNat (.pub 1) x

/-- `x ** power` where a secret is needed afterwards: the methods used then do not exist on Python numbers -/
def powSec (O : SecretOps m X F) (x : X n) (power : Int) : m (X n) := do
  match ← powS O x power with
  | .sec y => return y
  | .pub _ => O.raise .attributeError

/-! ## exponential and logarithm -/

/-- `exp`, `exponential.py:4-20` -/
def expS (O : SecretOps m X F) (x : X n) (iterations : Nat) : m (X n) := do
  let v ← O.divP x (2 ^ iterations)
  let v ← O.addP v 1
  powSec O v (2 ^ iterations)

/-- The powers of `h` in `log`, `log.py:31-33`: `h`, `h^2`, ..., `h^5`. -/
def logPowers (O : SecretOps m X F) (h0 : X n) : m (X n × X n × X n × X n) := do
  let h1 ← O.mul h0 h0
  let h2 ← O.mul h1 h0
  let h3 ← O.mul h2 h0
  let h4 ← O.mul h3 h0
  return (h1, h2, h3, h4)

/-- One Householder step of `log`, `log.py:31-35`. -/
def logStep (O : SecretOps m X F) (x y : X n) (expIterations : Nat) : m (X n) := do
  let ny ← O.mulP y (-1)
  let e ← expS O ny expIterations
  let xe ← O.mul x e
  let h0 ← O.rsubP 1 xe
  let (h1, h2, h3, h4) ← logPowers O h0
  let s ← O.addP (← O.divP h0 2) 1
  let s ← O.add s (← O.divP h1 3)
  let s ← O.add s (← O.divP h2 4)
  let s ← O.add s (← O.divP h3 5)
  let s ← O.add s (← O.divP h4 6)
  let d ← O.mul h0 s
  O.sub y d

/-- the loop of `log`, `log.py:30-35` -/
def logLoop (O : SecretOps m X F) (x : X n) (expIterations : Nat) : Nat → X n → m (X n)
  | 0, y => return y
  | k + 1, y => do
    let y ← logStep O x y expIterations
    logLoop O x expIterations k y

/-- `log`, `log.py:6-37` -/
def logS (O : SecretOps m X F) (x : X n) (iterations expIterations : Nat) : m (X n) := do
  let a ← O.divP x 31
  let a ← O.addP a (159 / 100)
  let b ← O.mulP x (-2)
  let b ← O.subP b (14 / 10)
  let b ← expS O b expIterations
  let b ← O.mulP b 20
  let y ← O.sub a b
  logLoop O x expIterations iterations y

/-! ## sign and reciprocal -/

/-- `sign`, `utils.py:4-13` -/
def signS (O : SecretOps m X F) (x : X n) : m (X n) := do
  let p ← O.gtP x 0
  let q ← O.ltP x 0
  let q ← O.mulP q (-1)
  O.add p q

/-- `modulus`, `utils.py:16-26` -/
def modulusS (O : SecretOps m X F) (x : X n) : m (X n) := do
  let s ← signS O x
  O.mul s x

/-- the loop of `reciprocal`, `reciprocal.py:35-36` -/
def newtonLoop (O : SecretOps m X F) (a : X n) : Nat → X n → m (X n)
  | 0, r => return r
  | k + 1, r => do
    let t ← O.mulP r 2
    let u ← O.mul r r
    let u ← O.mul u a
    let r ← O.sub t u
    newtonLoop O a k r

/-- the methods of `reciprocal`, after `method.lower()` -/
inductive RecipMethod where
  | nr | log | other
  deriving DecidableEq, Repr

/-- `reciprocal`, `reciprocal.py:9-42` -/
def reciprocalS (O : SecretOps m X F) (x : X n) (method : RecipMethod) (nrIters : Nat) : m (X n) :=
  match method with
  | .nr => do
    let a ← modulusS O x
    let r ← O.rsubP (1 / 2) a
    let r ← expS O r 8
    let r ← O.mulP r 3
    let r ← O.addP r (3 / 1000)
    let r ← newtonLoop O a nrIters r
    O.mul r (← signS O x)
  | .log => do
    let a ← modulusS O x
    let l ← logS O a 2 8
    let l ← O.mulP l (-1)
    let e ← expS O l 8
    O.mul e (← signS O x)
  | .other => O.raise .valueError

/-- `x / y` of two secrets, `truediv`, `mpc_tensor.py:602-613`; `parties` is the number of sessions of the parties -/
def truedivS (O : SecretOps m X F) (parties : Nat) (x y : X n) : m (X n) :=
  if parties > 2 then O.raise .valueError
  else do
    let r ← reciprocalS O y .nr 10
    O.mul x r

/-! ## activations -/

/-- `relu`, `functional.py:38-51` without autograd -/
def reluS (O : SecretOps m X F) (x : X n) : m (X n) := do
  let g ← O.geP x 0
  O.mul x g

/-- `hardtanh`, `tanh.py:60-79` -/
def hardtanhS (O : SecretOps m X F) (x : X n) (lo hi : F) : m (X n) := do
  let a ← O.subP x lo
  let a ← reluS O a
  let b ← O.subP x hi
  let b ← reluS O b
  let d ← O.sub a b
  O.addP d lo

/-- the loop of `_chebyshev_polynomials`, `tanh.py:130-132`: `k` further polynomials after the last two, `p1` and `p0` -/
def chebyshevLoop (O : SecretOps m X F) (y : X n) : Nat → X n → X n → m (List (X n))
  | 0, _, _ => return []
  | k + 1, p0, p1 => do
    let t ← O.mul y p1
    let p2 ← O.sub t p0
    let rest ← chebyshevLoop O y k p1 p2
    return p2 :: rest

/-- `_chebyshev_polynomials`, `tanh.py:106-134`; the list of the polynomials instead of their stack -/
def chebyshevPolynomials (O : SecretOps m X F) (x : X n) (terms : Nat) : m (List (X n)) :=
  if terms % 2 ≠ 0 ∨ terms < 6 then O.raise .valueError
  else do
    let y ← O.mulP x 4
    let y ← O.mul y x
    let y ← O.subP y 2
    let z ← O.subP y 1
    let p1 ← O.mul z x
    let rest ← chebyshevLoop O y (terms / 2 - 2) x p1
    return x :: p1 :: rest

/-- `polys.matmul(coeffs)` for a public vector.  Simplification: the parties multiply and add up before one truncation; here
every product is truncated. -/
def linearCombination (O : SecretOps m X F) : List (X n) → List F → Num X F n → m (Num X F n)
  | p :: ps, c :: cs, acc => do
    let t ← O.mulP p c
    let acc ← acc.addTo O t
    linearCombination O ps cs (.sec acc)
  | _, _, acc => return acc

/-- the methods of `sigmoid` -/
inductive SigmoidMethod where
  | exp | maclaurin | chebyshev | chebyshevAliter | other
  deriving DecidableEq, Repr

/-- `sigmoid` with `method="exp"`, `sigmoid.py:27-35` -/
def sigmoidExp (O : SecretOps m X F) (x : X n) : m (X n) := do
  let s ← signS O x
  let a ← O.mul x s
  let ones ← O.addP (← O.mulP x 0) 1
  let half ← O.divP ones 2
  let t ← O.mulP ones (-1)
  let t ← O.mul t a
  let e ← expS O t 8
  let d ← O.add ones e
  let r ← reciprocalS O d .nr 10
  let r ← O.sub r half
  let r ← O.mul r s
  O.add r half

/-- the loop of `sigmoid` with `method="maclaurin"`, `sigmoid.py:44-45` -/
def maclaurinLoop (O : SecretOps m X F) (x : X n) : List (Nat × F) → X n → m (X n)
  | [], r => return r
  | (d, w) :: rest, r => do
    let p ← powSec O x d
    let t ← O.mulP p w
    let r ← O.add r t
    maclaurinLoop O x rest r

/-- the degrees from the second one on and their weights, `sigmoid.py:38-39`.  Simplification: the decimal numbers of the text; torch
rounds them to float32. -/
def maclaurinWeights : List (Nat × F) := [(1, 191204779 / 10 ^ 9), (3, -458667307 / 10 ^ 11), (5, 420690803 / 10 ^ 13)]

/-- `sigmoid` with `method="maclaurin"`, `sigmoid.py:37-47` -/
def sigmoidMaclaurin (O : SecretOps m X F) (x : X n) : m (X n) := do
  let one ← O.addP (← O.mulP x 0) 1
  let r ← O.mulP one (1 / 2)
  maclaurinLoop O x maclaurinWeights r

/-- `tanh` with `method="chebyshev"`, `tanh.py:47-55`; `coeffs` are the odd coefficients of `chebyshev_series`, computed in the
clear -/
def tanhChebyshev (O : SecretOps m X F) (coeffs : List F) (x : X n) : m (X n) := do
  let ps ← chebyshevPolynomials O x 10
  match ← linearCombination O ps coeffs (.pub 0) with
  | .pub _ => O.raise .attributeError
  | .sec out => hardtanhS O out (-1) 1

/-- `sigmoid` with `method="chebyshev"`, `sigmoid.py:49-53` -/
def sigmoidChebyshev (O : SecretOps m X F) (coeffs : List F) (x : X n) : m (X n) := do
  let h ← O.divP x 2
  let t ← tanhChebyshev O coeffs h
  let t ← O.divP t 2
  O.addP t (1 / 2)

/-- `factorial`, `sigmoid.py:63-67` -/
def factorialPy (n : Nat) : Nat := (List.range' 1 n).foldl (· * ·) 1

/-- the loop of `sigmoid` with `method="chebyshev-aliter"`, `sigmoid.py:70-73` -/
def aliterLoop (O : SecretOps m X F) (w : X n) (q : Nat) : List Nat → X n → m (X n)
  | [], poly => return poly
  | mu :: rest, poly => do
    let a : F := (factorialPy (mu + q) : F) / ((factorialPy mu * factorialPy q : Nat) : F)
    let d ← O.rsubP 1 w
    let d ← O.divP d 2
    let t ← powS O d mu
    let t ← t.mulPub O a
    let poly ← t.addTo O poly
    aliterLoop O w q rest poly

/-- `sigmoid` with `method="chebyshev-aliter"`, `sigmoid.py:55-77` -/
def sigmoidAliter (O : SecretOps m X F) (x : X n) : m (X n) := do
  let s ← signS O x
  let w ← O.divP (← O.mul x s) 8
  let b ← O.divP (← O.addP w 1) 2
  let scaler ← powSec O b 5
  let poly ← O.mulP w 0
  let poly ← aliterLoop O w 4 (List.range 5) poly
  let result ← O.mul scaler poly
  let u ← O.rsubP 1 s
  let v ← O.rsubP 1 result
  let uv ← O.mul u v
  let t ← O.addP s 1
  let tr ← O.mul t result
  let z ← O.add uv tr
  O.divP z 2

/-- `sigmoid`, `sigmoid.py:13-80`; `coeffs` are the coefficients of `tanh` -/
def sigmoidS (O : SecretOps m X F) (coeffs : List F) (x : X n) : SigmoidMethod → m (X n)
  | .exp => sigmoidExp O x
  | .maclaurin => sigmoidMaclaurin O x
  | .chebyshev => sigmoidChebyshev O coeffs x
  | .chebyshevAliter => sigmoidAliter O x
  | .other => O.raise .valueError

/-- `_tanh_sigmoid`, `tanh.py:18-27` -/
def tanhSigmoid (O : SecretOps m X F) (x : X n) : m (X n) := do
  let t ← O.mulP x 2
  let s ← sigmoidExp O t
  let s ← O.mulP s 2
  O.subP s 1

/-- the methods of `tanh` -/
inductive TanhMethod where
  | sigmoid | chebyshev | other
  deriving DecidableEq, Repr

/-- `tanh`, `tanh.py:30-57`; `coeffs` as above -/
def tanhS (O : SecretOps m X F) (coeffs : List F) (x : X n) : TanhMethod → m (X n)
  | .sigmoid => tanhSigmoid O x
  | .chebyshev => tanhChebyshev O coeffs x
  | .other => O.raise .valueError

/-! ## softmax -/

/-- `tensor - maximum_value` with `keepdim=True`: every fibre minus its maximum, `softmax.py:31-32, 62-63`.  Simplification: the
maximum is repeated along the fibre by `view`; the code leaves that to broadcasting. -/
def logitsS (O : SecretOps m X F) (L : Layout n) (x : X n) : m (X n) := do
  let (mx, _) ← maxDim O L x
  let mx ← O.view L.row mx
  O.sub x mx

/-- `softmax`, `softmax.py:12-36`; `zeros` is the sharing of zero made from the parties' generators. -/
def softmaxS (O : SecretOps m X F) (L : Layout n) (zeros : m (X n)) (x : X n) : m (X n) :=
  if L.len = 1 then do
    let z ← zeros
    O.addP z 1
  else do
    let logits ← logitsS O L x
    let e ← expS O logits 8
    let d ← O.sums (fun r => (List.finRange L.len).map (L.pos r)) e
    let r ← reciprocalS O d .nr 10
    let r ← O.view L.row r
    O.mul e r

/-- `log_softmax`, `softmax.py:39-67` -/
def logSoftmaxS (O : SecretOps m X F) (L : Layout n) (zeros : m (X n)) (x : X n) : m (X n) :=
  if L.len = 1 then zeros
  else do
    let logits ← logitsS O L x
    let e ← expS O logits 8
    let d ← O.sums (fun r => (List.finRange L.len).map (L.pos r)) e
    let l ← logS O d 2 8
    let l ← O.view L.row l
    O.sub logits l

end SyMPC
