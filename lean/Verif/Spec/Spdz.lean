import Verif.Spec.Rst
import Verif.Model.Spdz

/-!
# What a multiplication may assume and must deliver
-/

namespace SyMPC

/-- A session as `setup_mpc` leaves it: ready, the parties know their rank, their uuids are different, and the session
pointers are those of the parties in order. -/
structure Session.Live (env : Env) (s : Session) : Prop extends s.Ready env where
  ranked : s.Ranked env
  distinct : s.rankToUuid.Nodup
  pointers : s.sessionPtrs.map (·.uuid) = s.rankToUuid

/-- A call made by the user of the SPDZ protocol: providing a triple ahead of time, or a product of two secrets. -/
inductive MulCmd (K Kw : Type) (A B : K → Type) where
  | provide (k : K) (kw : Kw)
  | mul (k : K) (kw : Kw) (x : MPCTensor (A k)) (y : MPCTensor (B k))

/-- The outcome of one product: what was asked and what came out. -/
structure MulEvent (K Kw : Type) (A B C : K → Type) where
  k : K
  kw : Kw
  x : MPCTensor (A k)
  y : MPCTensor (B k)
  out : MulOut (A k) (B k) (C k)

variable {K Kw : Type} [DecidableEq K] {A B C : K → Type}
  [∀ k, AddCommGroup (A k)] [∀ k, AddCommGroup (B k)] [∀ k, AddCommGroup (C k)]

/-- Running a history of calls in session `s`; the outcomes of the products in order. -/
def runMul (env : Env) (s : Session) (op : (k : K) → Kw → A k → B k → C k) (trunc : (k : K) → Config → C k → C k)
    (rnd : (k : K) → Nat → TripleRand (A k) (B k) (C k)) :
    List (MulCmd K Kw A B) → World K A B C → Py (List (MulEvent K Kw A B C))
  | [], _ => .ok []
  | .provide k kw :: cs, w => do
    let w ← generatePrimitives env s op rnd k kw w
    runMul env s op trunc rnd cs w
  | .mul k kw x y :: cs, w => do
    let (out, w) ← mulMaster env op trunc rnd k kw w x y
    let evs ← runMul env s op trunc rnd cs w
    return ⟨k, kw, x, y, out⟩ :: evs

/-- The operands of a product belong to the session `s`. -/
def MulCmd.Ok (env : Env) (s : Session) : MulCmd K Kw A B → Prop
  | .provide _ _ => True
  | .mul _ _ x y => x.session = s ∧ y.session = s ∧ x.WF env ∧ y.WF env

/-- The keyword arguments of the call are those that `f` has for its operation and shapes. -/
def MulCmd.KwIs (f : K → Kw) : MulCmd K Kw A B → Prop
  | .provide k kw => kw = f k
  | .mul k kw _ _ => kw = f k

/-- number of products in a history -/
def countMul : List (MulCmd K Kw A B) → Nat
  | [] => 0
  | .provide _ _ :: cs => countMul cs
  | .mul _ _ _ _ :: cs => countMul cs + 1

/-- the sum of the shares of a secret tensor -/
def MPCTensor.value {T : Type} [AddCommMonoid T] (x : MPCTensor T) : T := (x.shares.map (·.tensor)).sum

end SyMPC
