import Verif.Spec.Spdz
import Verif.Model.Fss
import Mathlib.Data.Int.ModEq

/-!
# What a comparison may assume and must deliver
-/

namespace SyMPC

/-- A two-party session as `setup_mpc` leaves it; the session pointers lead to the sessions the parties know. -/
structure Session.Pair (env : Env) (s : Session) : Prop extends s.Live env where
  pair : s.nrParties = 2
  objects : ∀ p ∈ s.sessionPtrs, env p.uuid = some p

/-- A pair of keys made by `sycret`: on every 32 bit value `m` the outputs of the two parties add up, modulo `2^32`, to 1
if `cmp m α` holds and to 0 otherwise, where `α` is the sum of the masks in the keys. -/
def KeysCorrect {Key : Type} (S : Sycret Key) (cmp : BitVec 32 → BitVec 32 → Prop) [DecidableRel cmp] (op : FssOp)
    (k : Key × Key) : Prop :=
  ∀ m : I64, 0 ≤ m.toInt → m.toInt < 2 ^ 32 →
    S.eval op 0 m k.1 + S.eval op 1 m k.2 ≡ (if cmp (m.setWidth 32) (S.alpha k.1 + S.alpha k.2) then 1 else 0) [ZMOD 2 ^ 32]

/-- No output of the two keys at `m` is the smallest 32 bit integer. -/
def NoMinOutput {Key : Type} (S : Sycret Key) (op : FssOp) (m : I64) (k : Key × Key) : Prop :=
  toInt32 (S.eval op 0 m k.1) ≠ -2 ^ 31 ∧ toInt32 (S.eval op 1 m k.2) ≠ -2 ^ 31

/-- A call made by the user: providing keys ahead of time, or a comparison of two secrets.  `keys` are the keys drawn by the
key generation of the call. -/
inductive FssCmd (Key : Type) where
  | provide (op : FssOp) (keys : List (Key × Key))
  | compare (n : Nat) (op : FssOp) (keys : List (Key × Key)) (x y : MPCTensor (Fin n → I64))

/-- the keys drawn in a call -/
def FssCmd.keys {Key : Type} : FssCmd Key → List (Key × Key)
  | .provide _ keys => keys
  | .compare _ _ keys _ _ => keys

/-- The operands of a comparison belong to the session `s`, and key generation gives as many keys as there are elements. -/
def FssCmd.Ok {Key : Type} (env : Env) (s : Session) : FssCmd Key → Prop
  | .provide _ _ => True
  | .compare n _ keys x y => keys.length = n ∧ x.session = s ∧ y.session = s ∧ x.WF env ∧ y.WF env

/-- the outcome of one comparison -/
structure FssEvent (Key : Type) where
  n : Nat
  op : FssOp
  keys : List (Key × Key)
  x : MPCTensor (Fin n → I64)
  y : MPCTensor (Fin n → I64)
  out : Py (FssOut Key n)

/-- Running a history of calls in session `s` (an exception ends the call, not the history); the outcomes of the comparisons
in order, and the stores at the end. -/
def runFss {Key : Type} (S : Sycret Key) (env : Env) (s : Session) :
    List (FssCmd Key) → FssWorld Key → List (FssEvent Key) × FssWorld Key
  | [], w => ([], w)
  | .provide op keys :: cs, w =>
    match fssGenerate s op keys w with
    | .ok w => runFss S env s cs w
    | .error _ => runFss S env s cs w
  | .compare n op keys x y :: cs, w =>
    let (out, w) := fssOp S env op keys x y w
    let (evs, w) := runFss S env s cs w
    (⟨n, op, keys, x, y, out⟩ :: evs, w)

/-- The pairs of keys used by a comparison: those of its masking step, party 0 with party 1 (none if it failed). -/
def FssEvent.used {Key : Type} (e : FssEvent Key) : List (Key × Key) :=
  match e.out with
  | .ok out =>
    match out.maskKeys with
    | [a, b] => a.zip b
    | _ => []
  | .error _ => []

end SyMPC
