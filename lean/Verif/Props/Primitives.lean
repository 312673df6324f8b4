import Verif.Model.Primitives
import Verif.Props.Provider
import Verif.Props.Store

/-!
# C68 for the primitives of Beaver triples: what a party gets is what was made for it
-/

namespace SyMPC.Provider

variable {V G : Type}

theorem find_registered {F : Type} (f : BeaverOp → F) (rest : Dict F) (op : BeaverOp) :
    Dict.find (beaverOps.map (fun o => (registeredName o, f o)) ++ rest) (registeredName op) = some (f op) := by
  cases op <;> rfl

/-- a queue of primitives: what a party has for an operation and two shapes -/
def queue (store : TripleStore V) (op : BeaverOp) (a b : List Nat) : List (List (Share V)) := (store (configKey op a b)).getD []

theorem queue_add (store : TripleStore V) (op o : BeaverOp) (a b a' b' : List Nat) (l : List (List (Share V))) :
    queue (store.add (configKey op a b) l) o a' b' =
      if o = op ∧ a' = a ∧ b' = b then queue store o a' b' ++ l else queue store o a' b' := by
  unfold queue Store.add
  by_cases h : o = op ∧ a' = a ∧ b' = b
  · obtain ⟨rfl, rfl, rfl⟩ := h
    cases hs : store (configKey o a' b') <;> simp [Store.get_set]
  · have hk : configKey o a' b' ≠ configKey op a b := fun e => h ((C21_key_injective _ _ _ _ _ _).mp e)
    cases hs : store (configKey op a b) <;> simp [Store.get_set, hk, h]

/-- C68 for Beaver triples.  Generating triples for an operation and two shapes appends to what each party has for this operation and these
shapes the instances made for this party, with the identifier of its session, and changes nothing else in any store. -/
theorem _root_.SyMPC.C68_triples_delivered (triples : BeaverOp → G → Option (List (Prims V))) (wraps : G → Option (List (Prims V)))
    (op : BeaverOp) (a b : List Nat) (uuids : List Nat) (g : G) (st : State (TripleStore V) G (List Nat × List Nat))
    (prims : List (Prims V)) (hp : triples op g = some prims) (hu : uuids.length = prims.length) (hs : st.stores.length = prims.length) :
    ∃ st' out, generate (beaverFunctions triples wraps) (registeredName op) uuids g (some (a, b)) st = (st', .ok out) ∧
      st'.stores.length = prims.length ∧
      ∀ r (h1 : r < prims.length) (h2 : r < uuids.length) (h3 : r < st.stores.length) (h4 : r < st'.stores.length) (o : BeaverOp)
        (a' b' : List Nat), queue st'.stores[r] o a' b' = queue st.stores[r] o a' b' ++
          if o = op ∧ a' = a ∧ b' = b then prims[r].map (fun i => i.map fun x => ⟨x.value, some uuids[r]⟩) else [] := by
  obtain ⟨st', out, e1, e2, e3, e4⟩ := C68_delivery (beaverFunctions triples wraps) (registeredName op) uuids g (a, b) st (triples op)
    (find_registered triples [("beaver_wraps", wraps)] op) prims hp _
    (by have := find_registered (fun o => fun (store : TripleStore V) (prims : Prims V) (p : List Nat × List Nat) =>
          (.ok (store.add (configKey o p.1 p.2) prims) : Py (TripleStore V))) [] op
        rwa [List.append_nil] at this) hu hs (fun r h1 h2 h3 => ⟨_, rfl⟩)
  refine ⟨st', out, e1, e3, fun r h1 h2 h3 h4 o a' b' => ?_⟩
  obtain ⟨f1, f2⟩ := e4 r h1 h2 h3 (by omega) h4
  rw [← Except.ok.inj f2, f1, queue_add]
  split <;> simp

/-- C68 for Beaver triples.  A party that asks for a triple with the two shapes gets the first of those that it has for the operation and
these shapes, which is taken out if `remove` and left if not, and nothing else in its store changes; if it has none this is
`EmptyPrimitiveStore`. -/
theorem _root_.SyMPC.C68_triples_requested (store : TripleStore V) (op : BeaverOp) (a b : List Nat) (remove : Bool) :
    match queue store op a b with
    | [] => getPrimitives (beaverGetters V) (registeredName op) store (.shape a) (b, remove) = .error .emptyStore
    | i :: rest => ∃ store', getPrimitives (beaverGetters V) (registeredName op) store (.shape a) (b, remove) = .ok (i, store') ∧
        ∀ (o : BeaverOp) (a' b' : List Nat), queue store' o a' b' =
          if o = op ∧ a' = a ∧ b' = b ∧ remove = true then rest else queue store o a' b' := by
  have hf : getPrimitives (beaverGetters V) (registeredName op) store (.shape a) (b, remove) = store.get (configKey op a b) remove := by
    cases op <;> rfl
  rw [hf]
  unfold Store.get
  cases hq : store (configKey op a b) with
  | none => simp [queue, hq]
  | some l =>
    cases l with
    | nil => simp [queue, hq]
    | cons i rest =>
      have : queue store op a b = i :: rest := by simp [queue, hq]
      rw [this]
      refine ⟨_, rfl, fun o a' b' => ?_⟩
      cases remove with
      | false => simp
      | true =>
        by_cases h : o = op ∧ a' = a ∧ b' = b
        · obtain ⟨rfl, rfl, rfl⟩ := h
          simp [queue, Store.get_set]
        · have hk : configKey o a' b' ≠ configKey op a b := fun e => h ((C21_key_injective _ _ _ _ _ _).mp e)
          simp [queue, Store.get_set, hk, h]

/-- Asking for triples by their number, which is what the parameter `nr_instances` and its default are for, is always a `TypeError`. -/
theorem _root_.SyMPC.C68_triples_by_number (store : TripleStore V) (op : BeaverOp) (n : Int) (b : List Nat) (remove : Bool) :
    getPrimitives (beaverGetters V) (registeredName op) store (.number n) (b, remove) = .error .typeError := by
  cases op <;> rfl

/-- Asking for what is not registered is a `KeyError`: among others for the pairs of `count_wraps_rand`, which have a generator but can be
neither stored nor asked for. -/
theorem _root_.SyMPC.C68_not_registered (store : TripleStore V) (name : String) (hn : ∀ op, name ≠ registeredName op) (first : First)
    (q : List Nat × Bool) : getPrimitives (beaverGetters V) name store first q = .error .keyError := by
  have : (beaverGetters V).find name = none := by
    unfold Dict.find
    rw [Option.map_eq_none_iff, List.find?_eq_none]
    intro e he
    unfold beaverGetters at he
    rw [List.mem_map] at he
    obtain ⟨op, -, rfl⟩ := he
    simpa using (hn op).symm
  unfold getPrimitives
  rw [this]

/-- C68: the pairs of `count_wraps_rand` with arguments for the stores are a `KeyError` and no store changes -/
theorem _root_.SyMPC.C68_wraps_not_stored (triples : BeaverOp → G → Option (List (Prims V))) (wraps : G → Option (List (Prims V)))
    (uuids : List Nat) (g : G) (p : List Nat × List Nat) (st : State (TripleStore V) G (List Nat × List Nat)) (prims : List (Prims V))
    (hp : wraps g = some prims) (hs : prims.length = st.stores.length) (hne : prims ≠ []) :
    (generate (beaverFunctions triples wraps) "beaver_wraps" uuids g (some p) st).2 = .error .keyError ∧
      (generate (beaverFunctions triples wraps) "beaver_wraps" uuids g (some p) st).1.stores = st.stores :=
  C68_no_adder (beaverFunctions triples wraps) "beaver_wraps" uuids g p st wraps rfl prims hp rfl hs hne

/-! ## A concrete case -/

/-- one instance of three shares for each of two parties -/
def exTriples (g : Nat) : Option (List (Prims Nat)) :=
  some [[[⟨g, none⟩, ⟨g + 1, none⟩, ⟨g + 2, none⟩]], [[⟨g + 3, none⟩, ⟨g + 4, none⟩, ⟨g + 5, none⟩]]]

/-- The second of two parties gets its own shares, for the shapes they were made for only, and once. -/
example :
    let st : State (TripleStore Nat) Nat (List Nat × List Nat) := ⟨[Store.empty, Store.empty], false, []⟩
    let st' := (generate (beaverFunctions (fun _ => exTriples) exTriples) "beaver_matmul" [70, 71] 5 (some ([2, 3], [3])) st).1
    (match st'.stores with
      | [_, store] =>
        match getPrimitives (beaverGetters Nat) "beaver_matmul" store (.shape [2, 3]) ([3], true) with
        | .ok (i, store') => (i.map (·.value), i.map (·.uuid), (queue store' .matmul [2, 3] [3]).length, (queue store .matmul [3] [2, 3]).length)
        | .error _ => ([], [], 7, 7)
      | _ => ([], [], 8, 8)) = ([8, 9, 10], [some 71, some 71, some 71], 0, 0) := by
  decide +kernel

example : ∀ op, "beaver_wraps" ≠ registeredName op := by intro op; cases op <;> decide

end SyMPC.Provider
