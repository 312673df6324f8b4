import Verif.Model.Ring
import Verif.Model.Encoder
import Verif.Model.Float32

/-!
# `decompose`

`src/sympc/utils/mpc_utils.py`
-/

namespace SyMPC

/-- `torch.fmod(q, 2)`: the remainder of the division rounded toward zero -/
def fmod2 (q : ℚ) : ℚ := q - 2 * FixedPointEncoder.truncRat (q / 2)

/-- One entry of `torch.fmod(tensor / moduli, 2).to(tensor_type)`, `mpc_utils.py:152`, before it is stored: `/` of integer tensors
converts both to float32 and divides in float32; the remainder is exact, and `.to` truncates toward zero. -/
def decomposeEntry (x m : Int) : Int := FixedPointEncoder.truncRat (fmod2 (f32 (f32 x / f32 m)))

/-- `decompose` of one element in the ring `2**w`, `mpc_utils.py:126-153`: `moduli` (line 151) are stored in `w` bits.  The shape, which
only adds a last dimension, is left out. -/
def decompose (w : Nat) (x : BitVec w) : List (BitVec w) :=
  (List.range (getNrBits (2 ^ w))).map fun k => BitVec.ofInt w (decomposeEntry x.toInt (BitVec.ofInt w (2 ^ k)).toInt)

/-- the same in the prime ring, whose elements are stored in unsigned bytes -/
def decomposePrime (x : BitVec 8) : List (BitVec 8) :=
  (List.range (getNrBits primeNumber)).map fun k => BitVec.ofInt 8 (decomposeEntry x.toNat (2 ^ k))

end SyMPC
