import Verif.Model.Py
import Mathlib.Data.Rat.Floor
import Mathlib.Algebra.Order.Field.Rat

/-!
# `sympc.encoder.FixedPointEncoder`

`src/sympc/encoder/fp_encoder.py`
-/

namespace SyMPC

/-- The encoder object, `src/sympc/encoder/fp_encoder.py:23-34` (`__slots__`).  Simplification: base and precision
are natural numbers (the code accepts any Python int). -/
structure FixedPointEncoder where
  precision : Nat
  base : Nat
  scale : Nat
  deriving DecidableEq, Repr

namespace FixedPointEncoder

/-- `__init__`, `fp_encoder.py:36-45`. -/
def new (base : Nat := 2) (precision : Nat := 16) : FixedPointEncoder :=
  { precision := precision, base := base, scale := base ^ precision }

/-- `precision.setter`, `fp_encoder.py:103-107`. -/
def setPrecision (e : FixedPointEncoder) (p : Nat) : FixedPointEncoder :=
  { e with precision := p, scale := e.base ^ p }

/-- `base.setter`, `fp_encoder.py:118-122`. -/
def setBase (e : FixedPointEncoder) (b : Nat) : FixedPointEncoder :=
  { e with base := b, scale := b ^ e.precision }

/-- What `decode` and `encode` can be given.  `float` stands for a Python float or an element of a floating point
tensor (rounding of floats is not modelled: exact rationals), `long` for an element of an integer tensor, `int` for
a Python int (converted to an int64 tensor by the code). -/
inductive Val where
  | float (q : ℚ)
  | int (z : Int)
  | long (t : I64)

/-- Float to integer conversion of `.long()`: truncation toward zero. -/
def truncRat (q : ℚ) : Int := Int.tdiv q.num q.den

/-- The integer `(value * scale).long()` before it is stored in 64 bits, `fp_encoder.py:59-60`. -/
def encodeInt (e : FixedPointEncoder) : Val → Int
  | .float q => truncRat (q * e.scale)
  | .int z => z * e.scale
  | .long t => t.toInt * e.scale

/-- `encode`, `fp_encoder.py:47-62`.  Integer products wrap around in int64.  A float too large for int64 has an
unspecified conversion in torch; the model wraps, and theorems on floats assume the value fits. -/
def encode (e : FixedPointEncoder) (v : Val) : I64 := BitVec.ofInt 64 (e.encodeInt v)

/-- The arithmetic of `decode` for `precision != 0`, `fp_encoder.py:86-91`, operation by operation in int64; the last
line's floats are rounded by `fl` after every operation. -/
def decodeCoreFl (e : FixedPointEncoder) (fl : ℚ → ℚ) (tensor : I64) : ℚ :=
  let s : I64 := BitVec.ofNat 64 e.scale
  let correction := isNeg tensor
  let dividend := floordiv tensor s - correction
  let remainder := pymod tensor s
  let remainder := remainder + isZero remainder * s * correction
  fl (fl (dividend.toInt : ℚ) + fl (fl (remainder.toInt : ℚ) / fl e.scale))

/-- The same with exact rationals instead of floats. -/
def decodeCore (e : FixedPointEncoder) (tensor : I64) : ℚ := e.decodeCoreFl id tensor

/-- `decode`, `fp_encoder.py:64-92`.  With precision 0 the integer tensor itself is returned (here: as a rational).  `float` is a
floating point tensor here (a Python float that is not a tensor passes the check of line 76 and fails in line 86, which is not
modelled); a Python int that does not fit in 64 bits raises in line 80, the model wraps it. -/
def decode (e : FixedPointEncoder) : Val → Py ℚ
  | .float _ => .error .valueError
  | .int z =>
    let t : I64 := BitVec.ofInt 64 z
    .ok (if e.precision = 0 then (t.toInt : ℚ) else e.decodeCore t)
  | .long t => .ok (if e.precision = 0 then (t.toInt : ℚ) else e.decodeCore t)

end FixedPointEncoder

/-- `sympc.config.Config`, `src/sympc/config/config.py:8-31`. -/
structure Config where
  encoderBase : Nat := 2
  encoderPrecision : Nat := 16
  deriving DecidableEq, Repr

/-- The encoder built from a configuration, `src/sympc/tensor/share_tensor.py:122-125`. -/
def Config.encoder (c : Config) : FixedPointEncoder := .new c.encoderBase c.encoderPrecision

end SyMPC
