import Verif.Model.Encoder
import Mathlib.Data.Rat.Floor
import Mathlib.Algebra.Order.Field.Rat

/-!
# float32

The rounding of torch's default floating point type, which `decode` and the code that computes with decoded values use
(`src/sympc/encoder/fp_encoder.py:91`).  Simplification: the exponent is unbounded (no overflow, no subnormal numbers).
-/

namespace SyMPC

/-- `2^e` -/
def pow2 : Int → ℚ
  | .ofNat n => ((2 ^ n : Nat) : ℚ)
  | .negSucc n => mkRat 1 (2 ^ (n + 1))

/-- the largest `e` with `2^e ≤ a`, for `a > 0` -/
def log2Rat (a : ℚ) : Int :=
  let e : Int := (Nat.log2 a.num.natAbs : Int) - Nat.log2 a.den
  if pow2 e ≤ a then e else e - 1

/-- nearest integer, ties to even -/
def roundHalfEven (q : ℚ) : Int :=
  let m := q.floor
  let r := q - m
  if r < 1 / 2 then m else if 1 / 2 < r then m + 1 else if m % 2 = 0 then m else m + 1

/-- round to the nearest number with 24 significant bits, ties to even (IEEE 754 binary32) -/
def f32 (q : ℚ) : ℚ :=
  if q = 0 then 0
  else
    let u := pow2 (log2Rat |q| - 23)
    roundHalfEven (q / u) * u

/-- `encode` of a float, `fp_encoder.py:56-62`, with its float arithmetic rounded by `fl`: a Python float is stored in a float32
tensor, the scale is converted for the product, and `.long()` truncates.  Simplification as for `encode`: a float too large for
int64 wraps around. -/
def FixedPointEncoder.encodeFl (e : FixedPointEncoder) (fl : ℚ → ℚ) (v : ℚ) : I64 :=
  BitVec.ofInt 64 (FixedPointEncoder.truncRat (fl (fl v * fl e.scale)))

end SyMPC
