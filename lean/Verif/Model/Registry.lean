import Verif.Model.Session
import Mathlib.Data.Finset.Basic

/-!
# The protocol registry and the session cache of `share()`

`src/sympc/protocol/protocol.py`, `src/sympc/tensor/mpc_tensor.py:1189-1216`
-/

namespace SyMPC

/-- What `Protocol.__new__` looks at in a new class: its name and whether the attributes are present (own or
inherited) and not `None`. -/
structure ClassDef where
  name : String
  shareClass : Option ShareClass
  securityLevels : Option (List Security)
  deriving DecidableEq, Repr

/-- `Protocol.registered_protocols` in order of insertion. -/
abbrev Registry := List (String × ClassDef)

/-- `Protocol.__new__`, `protocol.py:16-49`. -/
def Registry.register (reg : Registry) (c : ClassDef) : Registry × Py ClassDef :=
  match c.shareClass with
  | none => (reg, .error .valueError)
  | some _ =>
    match c.securityLevels with
    | none => (reg, .error .valueError)
    | some _ =>
      if c.name ∈ reg.map (·.1) then (reg, .error .valueError)
      else (reg ++ [(c.name, c)], .ok c)

/-- Instantiating a registered protocol, `falcon.py:40-55` (`ABY3` likewise): the security type must be one of the
class's levels. -/
def ClassDef.instantiate (c : ClassDef) (t : Security) : Py Protocol :=
  match c.shareClass, c.securityLevels with
  | some sc, some lv => if t ∈ lv then .ok { name := c.name, shareClass := sc, security := t } else .error .valueError
  | _, _ => .error .attributeError

/-- Keyword arguments of `share()` other than `parties` and `session`. -/
inductive Kw where
  /-- `config=`: an attribute of `Session`, not a parameter of `MPCTensor` -/
  | config (c : Config)
  /-- `ring_size=`: an attribute of `Session`, not a parameter of `MPCTensor` -/
  | ringSize (n : Nat)
  /-- `requires_grad=`: a parameter of `MPCTensor`, not an attribute of `Session` -/
  | requiresGrad (b : Bool)
  /-- any name that is neither -/
  | other
  deriving DecidableEq, Repr

/-- `setattr(session, key, val)`: `Session` has `__slots__` (`session.py:75-96`), so unknown names are an
`AttributeError`; earlier assignments stay. -/
def setAttrs (s : Session) : List Kw → Session × Py Unit
  | [] => (s, .ok ())
  | .config c :: ks => setAttrs { s with config := c } ks
  | .ringSize n :: ks => setAttrs { s with ringSize := n } ks
  | .requiresGrad _ :: _ => (s, .error .attributeError)
  | .other :: _ => (s, .error .attributeError)

/-- Binding the keyword arguments to `MPCTensor.__init__`: the value of `requires_grad`, or a `TypeError` for an
unknown name. -/
def bindKw : List Kw → Py Bool
  | [] => .ok false
  | .requiresGrad b :: ks => do let _ ← bindKw ks; return b
  | _ :: _ => .error .typeError

/-- `PARTIES_TO_SESSION`, `mpc_tensor.py:1189`. -/
abbrev Cache := Finset Nat → Option Session

/-- `share(parties=..., **kws)`, `mpc_tensor.py:1192-1216`, up to the construction of the tensor from the returned
session and `requires_grad`.  `setup` is `Session(parties)` followed by `setup_mpc`. -/
def share (setup : List Nat → Session) (cache : Cache) (parties : List Nat) (kws : List Kw) :
    Cache × Py (Session × Bool) :=
  let key := parties.toFinset
  match cache key with
  | some s => (cache, do let rg ← bindKw kws; return (s, rg))
  | none =>
    let (s, r) := setAttrs (setup parties) kws
    let cache' : Cache := fun k => if k = key then some s else cache k
    (cache', do r; let rg ← bindKw kws; return (s, rg))

end SyMPC
