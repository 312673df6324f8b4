import Verif.Model.RProgram
import Verif.Spec.Program
import Verif.Spec.Falcon

/-!
# What one party sees of a whole computation on replicated shares
-/

namespace SyMPC.RProgram

variable {P T : Type}

/-- The operations of the ring are those of the commutative ring `T`, with scaling. -/
structure Std [CommRing T] (K : RingKit T) (S : RingSem K.ops T) : Prop where
  kit : KitSem K S
  valid : ∀ a, S.Valid a
  den : ∀ a, S.den a = a
  size : ¬ (K.size = 2 ∨ K.size = primeNumber)
  nonEmpty : K.NonEmpty

/-- what is drawn for a statement -/
inductive Kind where
  | sharing
  | product
  | trunc
  deriving DecidableEq

def Draw.kind : Draw T → Kind
  | .sharing .. => .sharing
  | .product .. => .product
  | .trunc _ => .trunc

def kindOf : Program.Cmd P T → Option Kind
  | .secret _ => some .sharing
  | .mul _ _ => some .product
  | .mulPublic _ _ => some .trunc
  | _ => none

/-- the tape has what the program needs -/
def Fits (prog : List (Program.Cmd P T)) (tape : List (Draw T)) : Prop := tape.map Draw.kind = prog.filterMap kindOf

/-- what party `h` sees of a run -/
def seen (h : Nat) (log : List (Event T)) : List (Option (List T)) := log.map fun e => e.parties[h]?

end SyMPC.RProgram
