import Verif.Model.Spdz

/-!
# Products that raise

`src/sympc/protocol/spdz/spdz.py`, `src/sympc/protocol/beaver/beaver.py`, as in `Model/Spdz.lean`, for operations that torch may
refuse: `op k kw` is the product for the shapes of the key `k` and the keyword arguments `kw`, or the exception it raises
(simplification: whether it raises depends on shapes and keyword arguments, not on the values).  What a call did to the stores
before it raised stays.
-/

namespace SyMPC

variable {K Kw : Type} [DecidableEq K] {A B C : K → Type}

/-- `generate_primitives` for a Beaver triple, `crypto_primitive_provider.py:26-75`: the product of the two random tensors is
computed before anything is stored (`beaver.py:100`). -/
def generatePrimitivesR [∀ k, Sub (A k)] [∀ k, Sub (B k)] [∀ k, Sub (C k)] (env : Env) (s : Session)
    (op : (k : K) → Kw → Py (A k → B k → C k)) (rnd : (k : K) → Nat → TripleRand (A k) (B k) (C k)) (k : K) (kw : Kw)
    (w : World K A B C) : Py (World K A B C) := do
  let f ← op k kw
  let ps ← getTriples env f s.nrParties w.serial (rnd k w.serial)
  transferPrimitives { w with serial := w.serial + 1 } k (tagAll s.rankToUuid ps) s.sessionPtrs

/-- `mul_parties`, `spdz.py:125-178`: the triple is taken out of the store (`spdz.py:146-148`) before the product is computed
(`spdz.py:157`).  `f` is the product or its exception. -/
def mulPartiesR [∀ k, Add (C k)] (env : Env) (k : K) (f : Py (A k → B k → C k)) (trunc : Config → C k → C k) (u : Nat)
    (eps : A k) (delta : B k) (w : World K A B C) : Py (ShareTensor (C k) × Nat) × World K A B C :=
  match env u with
  | none => (.error .attributeError, w)
  | some p =>
    match (w.stores u).get k true with
    | .error e => (.error e, w)
    | .ok (t, st) =>
      let w := { w with stores := fun v => if v = u then st else w.stores v }
      (do
        let op ← f
        let z := t.c.tensor + op eps t.b.tensor + op t.a.tensor delta
        let z := if p.rank = 0 then z + op eps delta else z
        let z := if p.nrParties = 2 then trunc p.config z else z
        return (⟨z, some u, p.config, 2 ^ 64⟩, t.serial), w)

/-- The second use of `parallel_execution` in `mul_master`, `spdz.py:87-92`: every party runs, whatever happens at the others, and
the first exception in the order of the parties is raised (`utils.py:116-126`). -/
def mulAllR [∀ k, Add (C k)] (env : Env) (k : K) (f : Py (A k → B k → C k)) (trunc : Config → C k → C k) (eps : A k)
    (delta : B k) : List Nat → World K A B C → Py (List (ShareTensor (C k) × Nat)) × World K A B C
  | [], w => (.ok [], w)
  | u :: us, w =>
    let (z, w) := mulPartiesR env k f trunc u eps delta w
    let (zs, w) := mulAllR env k f trunc eps delta us w
    (do
      let z ← z
      let zs ← zs
      return z :: zs, w)

/-- The mask step with generation on demand, `spdz.py:62-77`. -/
def maskOrGenerateR [∀ k, Sub (A k)] [∀ k, Sub (B k)] [∀ k, Sub (C k)] (env : Env)
    (op : (k : K) → Kw → Py (A k → B k → C k)) (rnd : (k : K) → Nat → TripleRand (A k) (B k) (C k)) (k : K) (kw : Kw)
    (w : World K A B C) (x : MPCTensor (A k)) (y : MPCTensor (B k)) :
    Py (List (ShareTensor (A k) × ShareTensor (B k) × Nat)) × World K A B C :=
  match maskAll env w k x y with
  | .ok m => (.ok m, w)
  | .error .emptyStore =>
    match generatePrimitivesR env x.session op rnd k kw w with
    | .error e => (.error e, w)
    | .ok w' => (maskAll env w' k x y, w')
  | .error e => (.error e, w)

/-- The two opened values, `spdz.py:79-84`; with the numbers of the triples. -/
def openMasks [∀ k, AddCommGroup (A k)] [∀ k, AddCommGroup (B k)] {k : K} (nr : Nat)
    (masks : List (ShareTensor (A k) × ShareTensor (B k) × Nat)) : Py (A k × B k × List Nat) := do
  let local_ ← (List.range nr).mapM (pyGet masks)
  let eps ← ShareTensor.reconstruct (local_.map (·.1))
  let delta ← ShareTensor.reconstruct (local_.map (·.2.1))
  return (eps, delta, local_.map (·.2.2))

/-- `mul_master`, `spdz.py:36-96`: the outcome and the stores afterwards. -/
def mulMasterR [∀ k, AddCommGroup (A k)] [∀ k, AddCommGroup (B k)] [∀ k, AddCommGroup (C k)] (env : Env)
    (op : (k : K) → Kw → Py (A k → B k → C k)) (trunc : (k : K) → Config → C k → C k)
    (rnd : (k : K) → Nat → TripleRand (A k) (B k) (C k)) (k : K) (kw : Kw)
    (w : World K A B C) (x : MPCTensor (A k)) (y : MPCTensor (B k)) :
    Py (MulOut (A k) (B k) (C k)) × World K A B C :=
  match maskOrGenerateR env op rnd k kw w x y with
  | (.error e, w) => (.error e, w)
  | (.ok masks, w) =>
    match openMasks x.session.nrParties masks with
    | .error e => (.error e, w)
    | .ok (eps, delta, ids) =>
      match mulAllR env k (op k kw) (trunc k) eps delta x.session.rankToUuid w with
      | (.error e, w) => (.error e, w)
      | (.ok zs, w) =>
        match MPCTensor.ofShares x.session (zs.map (·.1)) with
        | .error e => (.error e, w)
        | .ok result => (.ok ⟨result, eps, delta, ids, zs.map (·.2)⟩, w)

end SyMPC
