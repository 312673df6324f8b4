import Verif.Model.Provider
import Verif.Model.Store

/-!
# The primitives that SyMPC registers for Beaver triples

`src/sympc/protocol/beaver/beaver.py`
-/

namespace SyMPC.Provider

/-- the names of the decorators, `beaver.py:171, 188, 210, 254, 271, 294, 338, 355, 377, 421, 438, 460` -/
def registeredName : BeaverOp → String
  | .mul => "beaver_mul"
  | .matmul => "beaver_matmul"
  | .conv2d => "beaver_conv2d"
  | .convTranspose2d => "beaver_conv_transpose2d"

/-- the four operations in the order of the file -/
def beaverOps : List BeaverOp := [.mul, .matmul, .conv2d, .convTranspose2d]

/-- the crypto store of a party, with instances of triples of shares -/
abbrev TripleStore (V : Type) := Store (List Char) fun _ => List (Share V)

/-- the adders, `beaver.py:188-207, 271-291, 355-374, 438-457`, with the keyword arguments `a_shape` and `b_shape` -/
def beaverAdders (V : Type) : Dict (TripleStore V → Prims V → List Nat × List Nat → Py (TripleStore V)) :=
  beaverOps.map fun op => (registeredName op, fun store prims p => .ok (store.add (configKey op p.1 p.2) prims))

/-- what a caller can give as `nr_instances`: a number (1 if nothing is given), or, as `spdz.py:116-118, 146-148` and `falcon.py:211-213,
263-265` do, a shape -/
inductive First where
  | number (n : Int)
  | shape (a : List Nat)

/-- the getters, `beaver.py:210-248, 294-332, 377-415, 460-498`: the first argument is `a_shape`, and `tuple` of a number is a `TypeError`.
The other arguments are `b_shape` and `remove`. -/
def beaverGetters (V : Type) : Dict (TripleStore V → First → List Nat × Bool → Py (List (Share V) × TripleStore V)) :=
  beaverOps.map fun op => (registeredName op, fun store first q =>
    match first with
    | .number _ => .error .typeError
    | .shape a => store.get (configKey op a q.1) q.2)

/-- the registered functions; the generators (`beaver.py:171-185, 254-268, 338-352, 421-435, 504-548`) are parameters, `wraps` is the one for
which neither an adder nor a getter is registered -/
def beaverFunctions {V G : Type} (triples : BeaverOp → G → Option (List (Prims V))) (wraps : G → Option (List (Prims V))) :
    Functions V (TripleStore V) G (List Nat × List Nat) :=
  ⟨beaverOps.map (fun op => (registeredName op, triples op)) ++ [("beaver_wraps", wraps)], beaverAdders V⟩

end SyMPC.Provider
