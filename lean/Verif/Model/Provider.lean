import Verif.Model.Py

/-!
# Registered functions: the provider of primitives, the stores, and the classes of tensors

`src/sympc/store/__init__.py`, `crypto_store.py`, `crypto_primitive_provider.py`, `src/sympc/tensor/tensor.py`
-/

namespace SyMPC.Provider

/-- a dictionary from names to functions, in the order of insertion -/
abbrev Dict (F : Type) := List (String × F)

/-- `d[name]` -/
def Dict.find {F : Type} (d : Dict F) (name : String) : Option F := (d.find? (·.1 = name)).map (·.2)

/-- `register_primitive_generator`, `register_primitive_store_add` and `register_primitive_store_get`, `store/__init__.py:7-22, 25-40, 43-58`: the
dictionary after the attempt and what the decorator returns -/
def Dict.register {F : Type} (d : Dict F) (name : String) (f : F) : Dict F × Py F :=
  if (d.find name).isSome then (d, .error .valueError) else (d ++ [(name, f)], .ok f)

/-- a share in a primitive: its value and the attribute `session_uuid` -/
structure Share (V : Type) where
  value : V
  uuid : Option Nat
  deriving DecidableEq, Repr

/-- the primitives of one party: instances, each a tuple of shares -/
abbrev Prims (V : Type) := List (List (Share V))

/-- the registered generators (`none` stands for a result that is not a list) and adders of a store `S`; `G` and `P` are the keyword
arguments of the two calls -/
structure Functions (V S G P : Type) where
  generators : Dict (G → Option (List (Prims V)))
  adders : Dict (S → Prims V → P → Py S)

/-- what a call changes: the stores of the parties (`session_ptrs`) and the log of the provider, `crypto_primitive_provider.py:19-20, 63-64`.
Simplified: `_ops_list` groups the entries by name, here they are in one list in the order of the calls. -/
structure State (S G P : Type) where
  stores : List S
  logging : Bool
  log : List (String × Option P × G)

variable {V S G P : Type}

/-- the loop that sets `session_uuid`, `crypto_primitive_provider.py:54-61`; `zip` stops at the shorter list.  Simplified: the primitives
of a party are always a list of tuples, so the case of lines 57-58 (a single object) does not arise. -/
def tag (uuids : List Nat) (prims : List (Prims V)) : List (Prims V) :=
  List.zipWith (fun (u : Nat) (p : Prims V) => p.map fun (i : List (Share V)) => i.map fun s => ({ s with uuid := some u } : Share V)) uuids prims ++
    prims.drop uuids.length

/-- `CryptoStore.populate_store`, `crypto_store.py:28-44` -/
def populate (fs : Functions V S G P) (name : String) (store : S) (prims : Prims V) (p : P) : Py S :=
  match fs.adders.find name with
  | none => .error .keyError
  | some add => add store prims p

/-- `CryptoStore.get_primitives_from_store`, `crypto_store.py:46-62`, with the registered getters: `first` is what the caller gives for
`nr_instances`, which is passed on as the first argument after the store, and `q` are the other arguments -/
def getPrimitives {N Q R : Type} (getters : Dict (S → N → Q → Py (R × S))) (name : String) (store : S) (first : N) (q : Q) : Py (R × S) :=
  match getters.find name with
  | none => .error .keyError
  | some get => get store first q

/-- the loop over the parties, `crypto_primitive_provider.py:92-95`: stores filled before an exception stay filled -/
def transferLoop (fs : Functions V S G P) (name : String) (p : P) : List (Prims V) → List S → List S × Py Unit
  | prims :: rest, store :: stores =>
    match populate fs name store prims p with
    | .error e => (store :: stores, .error e)
    | .ok store =>
      let r := transferLoop fs name p rest stores
      (store :: r.1, r.2)
  | _, stores => (stores, .ok ())

/-- `CryptoPrimitiveProvider.generate_primitives` and `_transfer_primitives_to_parties`, `crypto_primitive_provider.py:26-95`, in a
session whose parties have the identifiers `uuids`; `p = none` is `p_kwargs=None`.  A result of the generator that is not a list is
refused when it is transferred (and otherwise not modelled). -/
def generate (fs : Functions V S G P) (name : String) (uuids : List Nat) (g : G) (p : Option P) (st : State S G P) :
    State S G P × Py (List (Prims V)) :=
  match fs.generators.find name with
  | none => (st, .error .valueError)
  | some gen =>
    match gen g with
    | none => ({ st with log := if st.logging then st.log ++ [(name, p, g)] else st.log }, .error .valueError)
    | some prims =>
      let prims := tag uuids prims
      let st : State S G P := { st with log := if st.logging then st.log ++ [(name, p, g)] else st.log }
      match p with
      | none => (st, .ok prims)
      | some p =>
        if prims.length ≠ st.stores.length then (st, .error .valueError)
        else
          let r := transferLoop fs name p prims st.stores
          ({ st with stores := r.1 }, r.2.map fun _ => prims)

/-! ### Classes of tensors -/

/-- what a class has under a name: something of its own, a hooked method or a hooked property -/
inductive Entry where
  | own (n : Nat)
  | method (name : String)
  | property (name : String)
  deriving DecidableEq, Repr

/-- one of the two loops of `SyMPCTensor.__new__`, `tensor.py:36-39, 44-47` -/
def addHooks (hook : String → Entry) : List String → Dict Entry → Py (Dict Entry)
  | [], d => .ok d
  | name :: names, d => if (d.find name).isSome then .error .valueError else addHooks hook names (d ++ [(name, hook name)])

/-- `SyMPCTensor.__new__`, `tensor.py:16-50`.  The two sets of names are lists without repetitions. -/
def newClass (own : Dict Entry) (methods properties : List String) : Py (Dict Entry) := do
  let d ← addHooks .method methods own
  addHooks .property properties d

end SyMPC.Provider
