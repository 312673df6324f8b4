import Verif.Model.Tensor

/-!
# What `torch.argmax` and `torch.max` compute
-/

namespace SyMPC.Argmax

open Tensor

variable {R : Type}

/-- the position whose coordinate along dimension `d` is `k` and whose others are those of position `o` of the reduced tensor -/
def atPlace (keep : Bool) (d : Nat) (o : List Nat) (k : Nat) : List Nat := if keep then o.set d k else o.insertIdx d k

/-- the shape of the reduced tensor -/
def reduced (keep : Bool) (d : Nat) (s : List Nat) : List Nat := if keep then s.set d 1 else s.eraseIdx d

/-- No element along dimension `d` is larger than the one at `o`. -/
def Top [LE R] (x : Tensor R) (d : Nat) (o : List Nat) : Prop := ∀ j < x.shape.getD d 0, x.at_ (o.set d j) ≤ x.at_ o

/-- All other elements along dimension `d` that belong to position `o` of the reduced tensor are smaller than the one numbered `k`. -/
def OnlyMax [LT R] (x : Tensor R) (keep : Bool) (d : Nat) (o : List Nat) (k : Nat) : Prop :=
  k < x.shape.getD d 0 ∧ ∀ j < x.shape.getD d 0, j ≠ k → x.at_ (atPlace keep d o j) < x.at_ (atPlace keep d o k)

end SyMPC.Argmax
