import Verif.Model.Rst
import Verif.Model.Broadcast

/-!
# Comparing sessions, protocols and shares

`Session.__eq__`, the `__eq__` of the protocols, and the comparisons of `ShareTensor` and `ReplicatedSharedTensor`
-/

namespace SyMPC.Equality

open Tensor

/-- `FSS.__eq__`, `fss.py:243-258`, `ABY3.__eq__`, `aby3.py:53-68`, `Falcon.__eq__`, `falcon.py:68-83`, on two protocol objects; `type(self)`
is the class name -/
def protocolEq (p q : Protocol) : Bool :=
  if p.security ≠ q.security then false else if p.name ≠ q.name then false else true

/-- The object `Session` with all its slots, `session.py:75-96`.  Clients, stores, generators and pointers are given by an identity. -/
structure FullSession where
  id : Nat
  tags : List String
  description : String
  uuid : Option Nat
  rankToUuid : List Nat
  parties : List Nat
  nrParties : Nat
  trustedThirdParty : Option Nat
  cryptoStore : Option Nat
  protocol : Protocol
  config : Config
  przsGenerators : List Nat
  sessionPtrs : List Nat
  rank : Int
  ringSize : Nat
  minValue : Int
  maxValue : Int
  tensorType : DType
  autogradActive : Bool

/-- `Session.__init__`, `session.py:98-178`, with the slots that Syft fills; the checks are in `Session.new` -/
def FullSession.new (id : Nat) (tags : List String) (description : String) (parties : List Nat) (ringSize : Nat) (tensorType : DType)
    (config : Config) (protocol : Protocol) (ttp : Option Nat) : FullSession :=
  { id, tags, description, uuid := none, rankToUuid := [], parties, nrParties := parties.length, trustedThirdParty := ttp,
    cryptoStore := none, protocol, config, przsGenerators := [], sessionPtrs := [], rank := -1, ringSize,
    minValue := (-(ringSize : Int)).fdiv 2, maxValue := ((ringSize : Int) - 1).fdiv 2, tensorType, autogradActive := false }

/-- values of attributes -/
inductive Attr where
  | nat (n : Nat)
  | int (n : Int)
  | opt (n : Option Nat)
  | nats (l : List Nat)
  | text (s : String)
  | texts (l : List String)
  | protocol (p : Protocol)
  | config (c : Config)
  | dtype (t : DType)
  | bool (b : Bool)
  deriving DecidableEq

/-- Python's `==` on them -/
def Attr.eq : Attr → Attr → Bool
  | .protocol p, .protocol q => protocolEq p q
  | a, b => a = b

/-- `Session.__slots__`, `session.py:75-96` -/
def slots : List String :=
  ["id", "tags", "description", "uuid", "rank_to_uuid", "parties", "nr_parties", "trusted_third_party", "crypto_store", "protocol", "config",
    "przs_generators", "session_ptrs", "rank", "ring_size", "min_value", "max_value", "tensor_type", "autograd_active"]

/-- `Session.NOT_COMPARE`, `session.py:65-73` -/
def notCompare : List String := ["id", "description", "tags", "parties", "crypto_store", "przs_generators", "session_ptrs"]

/-- `operator.attrgetter(attr)` -/
def FullSession.get (s : FullSession) : String → Attr
  | "id" => .nat s.id
  | "tags" => .texts s.tags
  | "description" => .text s.description
  | "uuid" => .opt s.uuid
  | "rank_to_uuid" => .nats s.rankToUuid
  | "parties" => .nats s.parties
  | "nr_parties" => .nat s.nrParties
  | "trusted_third_party" => .opt s.trustedThirdParty
  | "crypto_store" => .opt s.cryptoStore
  | "protocol" => .protocol s.protocol
  | "config" => .config s.config
  | "przs_generators" => .nats s.przsGenerators
  | "session_ptrs" => .nats s.sessionPtrs
  | "rank" => .int s.rank
  | "ring_size" => .nat s.ringSize
  | "min_value" => .int s.minValue
  | "max_value" => .int s.maxValue
  | "tensor_type" => .dtype s.tensorType
  | "autograd_active" => .bool s.autogradActive
  | _ => .opt none

/-- `Session.__eq__`, `session.py:316-331`; `none` is an object of another class -/
def FullSession.eq (s : FullSession) : Option FullSession → Bool
  | none => false
  | some t => (slots.filter (· ∉ notCompare)).all fun a => (s.get a).eq (t.get a)

/-- `(x == y).all()` of two torch tensors -/
def allEqual {X : Type} [DecidableEq X] (x y : Tensor X) : Py Bool := do
  let r ← zip (fun a b => decide (a = b)) x y
  return (indices r.shape).all r.at_

/-- both identifiers are there and they differ, `share_tensor.py:405-409` -/
def uuidsDiffer (x y : Option Nat) : Bool :=
  match x, y with
  | some u, some v => u ≠ v
  | _, _ => false

/-- `ShareTensor.__eq__`, `share_tensor.py:387-415` -/
def shareEq {X : Type} [DecidableEq X] (x y : ShareTensor (Tensor X)) : Py Bool := do
  if !(← allEqual x.tensor y.tensor) then return false
  if x.config ≠ y.config then return false
  if uuidsDiffer x.sessionUuid y.sessionUuid then return false
  return true

/-- `torch.cat(shares)`: tensors without dimensions are refused -/
def catAll {X : Type} (ts : List (Tensor X)) : Py (Tensor X) :=
  if ts.any (·.shape = []) then .error .runtimeError else Tensor.cat ts 0

/-- `ReplicatedSharedTensor.eq`, `replicatedshare_tensor.py:669-692` -/
def replicatedEq {X : Type} [DecidableEq X] (x y : RST (Tensor X)) : Py Bool := do
  if !(← allEqual (← catAll x.shares) (← catAll y.shares)) then return false
  if x.config ≠ y.config then return false
  if uuidsDiffer x.sessionUuid y.sessionUuid then return false
  if x.ringSize ≠ y.ringSize then return false
  return true

/-- `ShareTensor.__gt__`, `share_tensor.py:339-350`, with a share as operand (`sanity_checks`, `share_tensor.py:171-174`) -/
def shareGt {X : Type} [LT X] [DecidableLT X] (x y : ShareTensor (Tensor X)) : Py (Tensor Bool) :=
  if uuidsDiffer y.sessionUuid x.sessionUuid then .error .valueError else zip (fun a b => decide (b < a)) x.tensor y.tensor

/-- `ShareTensor.__lt__`, `share_tensor.py:352-363`, with a share as operand -/
def shareLt {X : Type} [LT X] [DecidableLT X] (x y : ShareTensor (Tensor X)) : Py (Tensor Bool) :=
  if uuidsDiffer y.sessionUuid x.sessionUuid then .error .valueError else zip (fun a b => decide (a < b)) x.tensor y.tensor

end SyMPC.Equality
