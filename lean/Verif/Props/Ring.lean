import Verif.Lemmas.Ring

/-!
# C37: arithmetic in the prime ring
-/

namespace SyMPC

/-- C37: on canonical residues the three operations give the canonical residue of sum, difference and product. -/
theorem C37_prime_ring_ops (x y : BitVec 8) (hx : x.toNat < 67) (hy : y.toNat < 67) :
    ((addmodprime x y).toNat : Int) = ((x.toNat : Int) + y.toNat) % 67 ∧
    ((submodprime x y).toNat : Int) = ((x.toNat : Int) - y.toNat) % 67 ∧
    ((mulmodprime x y).toNat : Int) = ((x.toNat : Int) * y.toNat) % 67 ∧
    (addmodprime x y).toNat < 67 ∧ (submodprime x y).toNat < 67 ∧ (mulmodprime x y).toNat < 67 := by
  refine ⟨?_, submodprime_toNat x y hx hy, ?_, (primeSem.add x y hx hy).1, (primeSem.sub x y hx hy).1,
    (primeSem.mul x y hx hy).1⟩
  · rw [addmodprime_toNat x y hx hy]; norm_cast
  · rw [mulmodprime_toNat x y hx hy]; norm_cast

example : (66#8).toNat < 67 ∧ addmodprime 66#8 65#8 = 64#8 ∧ submodprime 3#8 66#8 = 4#8 ∧
    mulmodprime 66#8 65#8 = 2#8 := by decide

/-- C37: the domain of canonical residues is needed: on other bytes the 8-bit intermediate overflows. -/
theorem C37_noncanonical_counterexample :
    (addmodprime 200#8 100#8).toNat ≠ (200 + 100) % 67 ∧
    ((submodprime 200#8 1#8).toNat : Int) ≠ ((200 : Int) - 1) % 67 ∧
    (mulmodprime 200#8 200#8).toNat ≠ (200 * 200) % 67 := by decide

/-- C37: the machine operations of each supported ring implement the ring: integers mod 2 on all booleans, mod 67 on
all bytes below 67, mod `2^w` on all `w`-bit words. -/
theorem C37_rings_implemented :
    (∃ S : RingSem binOps (ZMod 2), (∀ b, S.Valid b) ∧ ∀ b, S.den b = if b then 1 else 0) ∧
    (∃ S : RingSem primeOps (ZMod 67), (∀ x, S.Valid x ↔ x.toNat < 67) ∧ ∀ x, S.den x = (x.toNat : ZMod 67)) ∧
    ∀ w, ∃ S : RingSem (powOps w) (BitVec w), (∀ x, S.Valid x) ∧ ∀ x, S.den x = x :=
  ⟨⟨binSem, fun _ => trivial, fun _ => rfl⟩, ⟨primeSem, fun _ => Iff.rfl, fun _ => rfl⟩,
    fun w => ⟨powSem w, fun _ => trivial, fun _ => rfl⟩⟩

/-- C37: `get_op` selects an operation for exactly the supported rings, and no `matmul` for the rings 2 and 67. -/
theorem C37_getOp_total (r : Nat) (op : OpStr) :
    (∃ k, getOp r op = .ok k) ↔ (∃ t, getTypeFromRing r = .ok t) ∧ ¬ (op = .matmul ∧ (r = 2 ∨ r = 67)) := by
  unfold getOp
  by_cases h2 : r = 2
  · subst h2; cases op <;> simp [getTypeFromRing]
  · by_cases h67 : r = 67
    · subst h67; cases op <;> simp [getTypeFromRing, primeNumber]
    · have : ¬ r = primeNumber := h67
      simp only [h2, this, if_false, h67, or_self, and_false, not_false_iff, and_true]
      cases getTypeFromRing r <;> simp

example : getOp 67 .matmul = .error .attributeError ∧ getOp 5 .add = .error .valueError ∧
    getOp (2 ^ 64) .matmul = .ok (.torch .matmul) := by decide

/-- the number of bits of an element of a torch type -/
def DType.bits : DType → Nat
  | .bool => 1
  | .int8 | .uint8 => 8
  | .int16 => 16
  | .int32 => 32
  | .int64 => 64

/-- C37: the element type of a ring has room for its elements, and wraps like the ring unless the ring is the prime one; the
prime ring's elements are not negative in their type. -/
theorem C37_ring_type (r : Nat) (t : DType) (h : getTypeFromRing r = .ok t) :
    r ≤ 2 ^ t.bits ∧ (r ≠ primeNumber → r = 2 ^ t.bits) ∧ (r = primeNumber → t = .uint8) := by
  unfold getTypeFromRing at h
  unfold primeNumber
  split at h
  · cases h; subst r; decide
  split at h
  · cases h; subst r; decide
  split at h
  · cases h; subst r; decide
  split at h
  · cases h; subst r; decide
  split at h
  · cases h; subst r; decide
  split at h
  · cases h; subst r; decide
  · cases h

example : getTypeFromRing (2 ^ 16) = .ok .int16 ∧ getTypeFromRing 67 = .ok .uint8 ∧ getTypeFromRing 100 = .error .valueError := by decide

end SyMPC
