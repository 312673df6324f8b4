import Verif.Model.Share

/-!
# The crypto store of a party

`src/sympc/store/crypto_store.py`, `src/sympc/protocol/beaver/beaver.py`
-/

namespace SyMPC

/-- The dictionary `CryptoStore.store`, `crypto_store.py:24-26`: a list of primitives per key.  The type of the
primitives may depend on the key. -/
def Store (K : Type) (V : K → Type) := (k : K) → Option (List (V k))

namespace Store

variable {K : Type} {V : K → Type} [DecidableEq K]

/-- a new store, `crypto_store.py:24-26` -/
def empty : Store K V := fun _ => none

/-- assignment `store[key] = primitives` -/
def set (s : Store K V) (k : K) (l : List (V k)) : Store K V := fun k' => if h : k' = k then some (h ▸ l) else s k'

/-- `mul_store_add`, `matmul_store_add`, `conv2d_store_add`, `conv_transpose2d_store_add`,
`beaver.py:188-207, 271-291, 355-374, 438-457`.  Simplification: the list given by the caller is copied, not shared. -/
def add (s : Store K V) (k : K) (primitives : List (V k)) : Store K V :=
  match s k with
  | some l => s.set k (l ++ primitives)
  | none => s.set k primitives

/-- `mul_store_get` and its three copies, `beaver.py:210-248, 294-332, 377-415, 460-498`. -/
def get (s : Store K V) (k : K) (remove : Bool := true) : Py (V k × Store K V) :=
  match s k with
  | none => .error .emptyStore
  | some [] => .error .emptyStore
  | some (p :: rest) => .ok (p, if remove then s.set k rest else s)

end Store

/-- The operations with Beaver triples, `EXPECTED_OPS`, `spdz.py:30`. -/
inductive BeaverOp where
  | mul | matmul | conv2d | convTranspose2d
  deriving DecidableEq, Repr

/-- the name used in `beaver_{op_str}` -/
def BeaverOp.name : BeaverOp → List Char
  | .mul => "mul".toList
  | .matmul => "matmul".toList
  | .conv2d => "conv2d".toList
  | .convTranspose2d => "conv_transpose2d".toList

/-- decimal digits of a number, as printed by Python -/
def decStr (n : Nat) : List Char := Nat.toDigits 10 n

/-- the elements after the first of a printed tuple -/
def tupleRest : List Nat → List Char
  | [] => [')']
  | n :: l => ',' :: ' ' :: (decStr n ++ tupleRest l)

/-- `str(t)` of a Python tuple of non-negative integers: `()`, `(3,)`, `(2, 3)`. -/
def tupleStr : List Nat → List Char
  | [] => ['(', ')']
  | [n] => '(' :: (decStr n ++ [',', ')'])
  | n :: m :: l => '(' :: (decStr n ++ tupleRest (m :: l))

/-- `config_key = f"beaver_mul_{a_shape}_{b_shape}"` and its three variants, `beaver.py:203, 233, 287, 317, 370, 400,
453, 483` (strings are lists of characters). -/
def configKey (op : BeaverOp) (a b : List Nat) : List Char :=
  "beaver_".toList ++ (op.name ++ ('_' :: (tupleStr a ++ ('_' :: tupleStr b))))

end SyMPC
