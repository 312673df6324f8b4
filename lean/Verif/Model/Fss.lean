import Verif.Model.Share

/-!
# Comparison by function secret sharing

`src/sympc/protocol/fss/fss.py`, `src/sympc/store/crypto_primitive_provider.py`

A tensor with `n` elements is a function on `Fin n` (the flattened tensor; both operands have the same shape).  The library
`sycret` is a parameter.  An exception does not undo what was stored before it was raised, so calls return the outcome and
the stores.
-/

namespace SyMPC

/-- The two operations, `op` in `fss.py`: "eq" and "comp". -/
inductive FssOp where
  | eq | comp
  deriving DecidableEq, Repr

/-- What the code uses of `sycret` and of its keys: the first four bytes of a key as an unsigned number
(`fss.py:70-71`), and `EqFactory.eval`, `LeFactory.eval` at party `b` on one masked value and one key
(`fss.py:101-104`; the result is an integer of some width). -/
structure Sycret (Key : Type) where
  alpha : Key → BitVec 32
  eval : FssOp → Nat → I64 → Key → Int

/-- The entries "fss_eq" and "fss_comp" of the dictionary of a crypto store: stacks of arrays of keys. -/
def FssStore (Key : Type) := FssOp → Option (List (List Key))

namespace FssStore

variable {Key : Type}

/-- `_ensure_fss_store`, `fss.py:264-272`. -/
def ensure (s : FssStore Key) : FssStore Key := fun op => some ((s op).getD [[]])

/-- `store[op]` after `_ensure_fss_store` -/
def stack (s : FssStore Key) (op : FssOp) : List (List Key) := (s.ensure op).getD []

/-- `store[op] = l` -/
def set (s : FssStore Key) (op : FssOp) (l : List (List Key)) : FssStore Key := fun o => if o = op then some l else s o

/-- `_add_primitive`, `fss.py:298-319`. -/
def add (s : FssStore Key) (op : FssOp) (primitives : List Key) : FssStore Key :=
  match s.stack op with
  | [] => s.ensure.set op [primitives]
  | [] :: _ => s.ensure.set op [primitives]
  | cur => s.ensure.set op (cur ++ [primitives])

/-- `_get_primitive`, `fss.py:322-344`. -/
def get (s : FssStore Key) (op : FssOp) (nrInstances : Nat) (remove : Bool) : Py (List Key) × FssStore Key :=
  match s.stack op with
  | [] => (.error .valueError, s.ensure)
  | keys :: rest =>
    if nrInstances ≤ keys.length then (.ok (keys.take nrInstances), if remove then s.ensure.set op rest else s.ensure)
    else (.error .valueError, s.ensure)

end FssStore

/-- the crypto stores of all parties, by the uuid of the party's session -/
def FssWorld (Key : Type) := Nat → FssStore Key

namespace FssWorld

variable {Key : Type}

/-- no keys anywhere -/
def empty : FssWorld Key := fun _ _ => none

/-- the store of one party is replaced -/
def set (w : FssWorld Key) (u : Nat) (s : FssStore Key) : FssWorld Key := fun v => if v = u then s else w v

end FssWorld

variable {Key : Type} {n : Nat}

/-- `generate_primitives` for "fss_eq" or "fss_comp", `crypto_primitive_provider.py:26-95` with `fss.py:275-295`: key
generation gives one array of keys for each of two parties, given here as a list of pairs. -/
def fssGenerate (s : Session) (op : FssOp) (keys : List (Key × Key)) (w : FssWorld Key) : Py (FssWorld Key) :=
  let primitives := [keys.map (·.1), keys.map (·.2)]
  if primitives.length ≠ s.sessionPtrs.length then .error .valueError
  else .ok ((primitives.zip s.sessionPtrs).foldl (fun w (p, t) => w.set t.uuid ((w t.uuid).add op p)) w)

/-- The tensor of the shares of `alpha`, `fss.py:70-73`. -/
def alphaShare (S : Sycret Key) (keys : List Key) : Fin n → I64 := fun i =>
  match keys[i.val]? with
  | some k => (S.alpha k).setWidth 64
  | none => 0

/-- `mask_builder` at the party with session `p`, `fss.py:45-75`.  Returns also the keys used. -/
def maskBuilder (S : Sycret Key) (env : Env) (w : FssWorld Key) (op : FssOp) (p : PartySession)
    (x1 x2 : ShareTensor (Fin n → I64)) : Py (ShareTensor (Fin n → I64) × List Key) := do
  let x ← ShareTensor.sub (P := Empty) env x1 (.inr x2)
  let keys ← ((w p.uuid).get op n false).1
  return ({ x with tensor := x.tensor + alphaShare S keys }, keys)

/-- `.astype(np.int32)`: the low 32 bits, signed -/
def toInt32 (z : Int) : Int := z.bmod (2 ^ 32)

/-- The tensor of results of `eval`, `fss.py:96-109`. -/
def evalTensor (S : Sycret Key) (op : FssOp) (b : Nat) (m : Fin n → I64) (keys : List Key) : Fin n → I64 := fun i =>
  match keys[i.val]? with
  | some k => BitVec.ofInt 64 (toInt32 (S.eval op b (m i) k))
  | none => 0

/-- `evaluate` at the party with session `p`, `fss.py:79-115`: the result, an integer tensor, is encoded by the constructor
of `ShareTensor` (`share_tensor.py:127-130`).  Returns also the keys used. -/
def fssEvaluate (S : Sycret Key) (op : FssOp) (b : Nat) (m : Fin n → I64) (p : PartySession) (w : FssWorld Key) :
    Py (ShareTensor (Fin n → I64) × List Key) × FssWorld Key :=
  let (keys, st) := (w p.uuid).get op n true
  (keys.map fun keys => (⟨fun i => p.config.encoder.encode (.long (evalTensor S op b m keys i)), some p.uuid, p.config, 2 ^ 64⟩, keys),
    w.set p.uuid st)

/-- What a comparison leaves behind: the result, the opened value, and (not in the code) the keys used by each party in the
two steps. -/
structure FssOut (Key : Type) (n : Nat) where
  result : MPCTensor (Fin n → I64)
  opened : Fin n → I64
  maskKeys : List (List Key)
  evalKeys : List (List Key)

/-- The masking step of `fss_op`, `fss.py:158-161`, with `src/sympc/utils/utils.py:97-124`. -/
def maskAllFss (S : Sycret Key) (env : Env) (w : FssWorld Key) (op : FssOp) (x1 x2 : MPCTensor (Fin n → I64)) :
    Py (List (ShareTensor (Fin n → I64) × List Key)) :=
  let args := x1.session.sessionPtrs.zip (x1.shares.zip x2.shares)
  if args.isEmpty then .error .valueError
  else if x1.session.parties.length < args.length then .error .indexError
  else args.mapM fun (p, a, b) => maskBuilder S env w op p a b

/-- The opened value, `fss.py:164-165`: the sum of the shares, modulo `2^32`. -/
def openMask (s : Session) (shares : List (ShareTensor (Fin n → I64))) : Py (Fin n → I64) := do
  let x ← MPCTensor.ofShares s shares
  let v ← x.reconstruct
  return fun i => pymod (v i) (2 ^ 32)

/-- The evaluation step of `fss_op`, `fss.py:168-172`: the first two parties, each in its own thread (an exception in one
does not stop the other). -/
def evalBoth (S : Sycret Key) (s : Session) (op : FssOp) (m : Fin n → I64) (w : FssWorld Key) :
    Py (List (ShareTensor (Fin n → I64) × List Key)) × FssWorld Key :=
  match s.sessionPtrs with
  | p0 :: p1 :: _ =>
    if s.parties.length < 2 then (.error .indexError, w)
    else
      let (r0, w) := fssEvaluate S op 0 m p0 w
      let (r1, w) := fssEvaluate S op 1 m p1 w
      (do
        let a ← r0
        let b ← r1
        return [a, b], w)
  | _ => (.error .indexError, w)

/-- The part of `fss_op` after the masking step. -/
def fssFinish (S : Sycret Key) (s : Session) (op : FssOp) (masks : List (ShareTensor (Fin n → I64) × List Key))
    (w : FssWorld Key) : Py (FssOut Key n) × FssWorld Key :=
  match openMask s (masks.map (·.1)) with
  | .error e => (.error e, w)
  | .ok m =>
    let (r, w) := evalBoth S s op m w
    (do
      let shares ← r
      let result ← MPCTensor.ofShares s (shares.map (·.1))
      return ⟨result, m, masks.map (·.2), shares.map (·.2)⟩, w)

/-- `fss_op`, `fss.py:118-180`; `keys` are the keys that key generation draws for this call. -/
def fssOp (S : Sycret Key) (env : Env) (op : FssOp) (keys : List (Key × Key)) (x1 x2 : MPCTensor (Fin n → I64))
    (w : FssWorld Key) : Py (FssOut Key n) × FssWorld Key :=
  match fssGenerate x1.session op keys w with
  | .error e => (.error e, w)
  | .ok w =>
    match maskAllFss S env w op x1 x2 with
    | .error e => (.error e, w)
    | .ok masks => fssFinish S x1.session op masks w

end SyMPC
