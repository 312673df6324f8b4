import Verif.Model.RstShape
import Verif.Spec.ShapeFixed

/-!
# When the truncation of replicated shares is good

The estimates of the errors are those of `Spec/ShapeFixed.lean`.
-/

namespace SyMPC.RShape

open Tensor Shape

/-- the two summands of a product that are divided by the scale do not leave the range of 64 bit integers when they are added -/
def NoWrap (z : Trio (Tensor I64)) : Prop :=
  ∀ o, ValidIdx z.p0.shape o → -2 ^ 63 ≤ (z.p0.at_ o).toInt + (z.p1.at_ o + z.p2.at_ o).toInt ∧
    (z.p0.at_ o).toInt + (z.p1.at_ o + z.p2.at_ o).toInt < 2 ^ 63

end SyMPC.RShape
