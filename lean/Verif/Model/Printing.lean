import Verif.Model.ShapeFixed
import Verif.Model.RstShape

/-!
# The printed form of a secret

`src/sympc/tensor/mpc_tensor.py:872-895`: what `str(x)`, `repr(x)` and so a notebook or a log show of an `MPCTensor`.
-/

namespace SyMPC.Printing

open Shape

/-- A pointer to the share of one party: how the client prints, the name of the type of the pointer, and what the pointer points to. -/
structure Ptr (S : Type) where
  client : String
  name : String
  share : S

/-- the attributes of an `MPCTensor` that `__str__` could use, `mpc_tensor.py:98-112`.  `gradFn` is the
printed form of the attribute `grad_fn`. -/
structure Printable (S : Type) where
  ptrs : List (Ptr S)
  shape : Reported
  requiresGrad : Bool
  gradFn : Option String

/-- the pointers of the shares at the clients of the session, `share_tensor.py:542-562` and `mpc_tensor.py:193-196` -/
def ptrs {S : Type} (clients : List String) (name : String) (shares : List S) : List (Ptr S) :=
  (clients.zip shares).map fun p => ⟨p.1, name, p.2⟩

/-- `str(x)` and `repr(x)`, `mpc_tensor.py:872-895`; `render` is Python's printing of shapes (a `torch.Size`, list or `None`) -/
def str {S : Type} (render : Reported → String) (x : Printable S) : String :=
  let out := "[MPCTensor]\nShape: " ++ render x.shape
  let out := out ++ "\nRequires Grad: " ++ (if x.requiresGrad then "True" else "False")
  let out := match x.gradFn with
    | some g => out ++ "\nGradFunc: " ++ g
    | none => out
  x.ptrs.foldl (fun out p => out ++ "\n\t| " ++ p.client ++ " -> " ++ p.name) out

end SyMPC.Printing
