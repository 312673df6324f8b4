import Verif.Model.Ring

/-!
# What it means for machine operations to implement a commutative ring

Used to state properties once for all supported rings.
-/

namespace SyMPC

/-- The operations `I` on machine values `E` implement the commutative ring `R`: on valid representations, every
operation gives the representation of the ring operation's result, and representations are unique. -/
structure RingSem {E : Type} (I : RingOps E) (R : Type) [CommRing R] where
  Valid : E → Prop
  den : E → R
  inj : ∀ a b, Valid a → Valid b → den a = den b → a = b
  add : ∀ a b, Valid a → Valid b → Valid (I.add a b) ∧ den (I.add a b) = den a + den b
  sub : ∀ a b, Valid a → Valid b → Valid (I.sub a b) ∧ den (I.sub a b) = den a - den b
  mul : ∀ a b, Valid a → Valid b → Valid (I.mul a b) ∧ den (I.mul a b) = den a * den b
  sum : ∀ l : List E, l ≠ [] → (∀ a ∈ l, Valid a) →
    ∃ s, I.sum l = .ok s ∧ Valid s ∧ den s = (l.map den).sum

end SyMPC
