import Verif.Spec.Spdz
import Verif.Model.Falcon
import Mathlib.Algebra.Ring.Basic
import Mathlib.Algebra.Group.Hom.Basic

/-!
# Three-party replicated sharings in any ring
-/

namespace SyMPC

variable {E R A B C RA RB RC : Type} [CommRing R] [CommRing RA] [CommRing RB] [CommRing RC]

/-- A live session with three parties. -/
structure Session.Three (env : Env) (s : Session) : Prop extends s.Live env where
  three : s.nrParties = 3

/-- The secret tensor `x` of session `s` is consistently shared by `sh 0`, `sh 1`, `sh 2`: party `r` holds share `r` and
the next one, under its own session.  The ring `q` and the configuration `c` are those the parties' tensors carry. -/
structure RMPC.Rep3 (s : Session) (x : RMPC E) (q : Nat) (c : Config) (sh : Nat → E) : Prop where
  session : x.session = s
  shares : x.shares = (List.range 3).map fun r => ⟨[sh r, sh ((r + 1) % 3)], s.rankToUuid[r]?, c, q⟩

/-- The tensor `x` is consistently shared and its value is `v`. -/
def RMPC.Is {I : RingOps E} (S : RingSem I R) (s : Session) (x : RMPC E) (q : Nat) (c : Config) (v : R) : Prop :=
  ∃ sh : Nat → E, x.Rep3 s q c sh ∧ (∀ i, S.Valid (sh i)) ∧ S.den (sh 0) + S.den (sh 1) + S.den (sh 2) = v

/-- The product `P` implements the bi-additive map `β`. -/
def ProdSem {IA : RingOps A} {IB : RingOps B} {IC : RingOps C} (SA : RingSem IA RA) (SB : RingSem IB RB)
    (SC : RingSem IC RC) (P : Product A B C) (β : RA →+ RB →+ RC) : Prop :=
  ∀ a b, SA.Valid a → SB.Valid b → SC.Valid (P.op a b) ∧ SC.den (P.op a b) = β (SA.den a) (SB.den b)

/-- The stores of the three parties hand out a consistently shared triple in ring `q` with `c = a * b + err`. -/
def TripleErr {IA : RingOps A} {IB : RingOps B} {IC : RingOps C} (SA : RingSem IA RA) (SB : RingSem IB RB)
    (SC : RingSem IC RC) (β : RA →+ RB →+ RC) (s : Session) (q : Nat) (triple : Nat → Py (RTriple A B C)) (err : RC) : Prop :=
  ∃ (sa : Nat → A) (sb : Nat → B) (sc : Nat → C) (ca cb cc : Config),
    (∀ i, SA.Valid (sa i)) ∧ (∀ i, SB.Valid (sb i)) ∧ (∀ i, SC.Valid (sc i)) ∧
    (∀ r < 3, ∀ u, s.rankToUuid[r]? = some u → triple u = .ok
      ⟨⟨[sa r, sa ((r + 1) % 3)], some u, ca, q⟩, ⟨[sb r, sb ((r + 1) % 3)], some u, cb, q⟩,
        ⟨[sc r, sc ((r + 1) % 3)], some u, cc, q⟩⟩) ∧
    SC.den (sc 0) + SC.den (sc 1) + SC.den (sc 2)
      = β (SA.den (sa 0) + SA.den (sa 1) + SA.den (sa 2)) (SB.den (sb 0) + SB.den (sb 1) + SB.den (sb 2)) + err

/-- Zero shares of three parties. -/
def ZeroMask {IC : RingOps C} (SC : RingSem IC RC) (mask : Nat → C) : Prop :=
  (∀ i, SC.Valid (mask i)) ∧ SC.den (mask 0) + SC.den (mask 1) + SC.den (mask 2) = 0

/-- What the randomness of a product may be: zero shares that sum to zero, any truncation mask and, with malicious
security, a correct triple. -/
structure MulRand.Ok {IA : RingOps A} {IB : RingOps B} {IC : RingOps C} (SA : RingSem IA RA) (SB : RingSem IB RB)
    (SC : RingSem IC RC) (β : RA →+ RB →+ RC) (s : Session) (q : Nat) (rnd : MulRand A B C) : Prop where
  mask : ZeroMask SC rnd.mask
  trunc : SC.Valid rnd.trunc
  triple : s.protocol.security = .malicious → TripleErr SA SB SC β s q rnd.triple 0

/-- Tensors with this ring and configuration are not scaled: truncation does nothing and public integers are encoded
as they are. -/
def Unscaled (q : Nat) (c : Config) : Prop := q = 2 ∨ q = primeNumber ∨ c.encoderBase ^ c.encoderPrecision = 1

/-- A tensor in ring `q` that is not scaled, with value `v`. -/
def RMPC.Plain {I : RingOps E} (S : RingSem I R) (s : Session) (x : RMPC E) (q : Nat) (v : R) : Prop :=
  ∃ c, Unscaled q c ∧ x.Is S s q c v

/-- The parts of a ring other than its operations do what their names say: the ring is supported, the zero test, the
conversion of bits, public integers without scaling (in the bit ring only -1, 0 and 1 keep their parity), and the
truncation by scale 1. -/
structure KitSem (K : RingKit E) (S : RingSem K.ops R) : Prop where
  ring : ∃ t, getTypeFromRing K.size = .ok t
  isZero : ∀ a, S.Valid a → (K.isZero a = true ↔ S.den a = 0)
  ofBool : ∀ b, S.Valid (K.ofBool b) ∧ S.den (K.ofBool b) = if b then 1 else 0
  encInt : ∀ c z, Unscaled K.size c → (K.size = 2 → z = -1 ∨ z = 0 ∨ z = 1) →
    S.Valid (K.enc c (.int z)) ∧ S.den (K.enc c (.int z)) = (z : R)
  encLong : ∀ c t, Unscaled K.size c → (K.size = 2 → t.toInt = -1 ∨ t.toInt = 0 ∨ t.toInt = 1) →
    S.Valid (K.enc c (.long t)) ∧ S.den (K.enc c (.long t)) = (t.toInt : R)
  shift : ∀ c a, c.encoderBase ^ c.encoderPrecision = 1 → S.Valid a → K.shift c a = a
  shiftValid : ∀ c a, S.Valid a → S.Valid (K.shift c a)

/-- The tensors have at least one element: `(x != x).all()` is false. -/
def RingKit.NonEmpty (K : RingKit E) : Prop := ∀ a, K.neAll a a = false

/-- The draws for a triple are elements of the ring and the masks of its product are zero shares. -/
structure Falcon.RTripleRand.Ok {IA : RingOps A} {IB : RingOps B} {IC : RingOps C} (SA : RingSem IA RA) (SB : RingSem IB RB)
    (SC : RingSem IC RC) (rnd : RTripleRand A B C) : Prop where
  a : ∀ i, SA.Valid (rnd.a i)
  b : ∀ i, SB.Valid (rnd.b i)
  mask : ZeroMask SC rnd.mask

/-- The triples the parties of the session hold: as many at each party, and those at the same place belong together and
are correct. -/
def Falcon.Triples.Good {IA : RingOps A} {IB : RingOps B} {IC : RingOps C} (SA : RingSem IA RA) (SB : RingSem IB RB)
    (SC : RingSem IC RC) (β : RA →+ RB →+ RC) (s : Session) (q : Nat) (st : Triples A B C) : Prop :=
  ∃ n, (∀ u ∈ s.rankToUuid, (st u).length = n) ∧ ∀ i < n, TripleErr SA SB SC β s q (fun u => pyGet (st u) i) 0

end SyMPC
