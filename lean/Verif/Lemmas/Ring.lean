import Mathlib.Algebra.Ring.Pi
import Verif.Spec.Ring
import Mathlib.Tactic.Ring
import Mathlib.Tactic.NormNum
import Mathlib.Tactic.IntervalCases

namespace SyMPC

theorem addmodprime_toNat (x y : BitVec 8) (hx : x.toNat < 67) (hy : y.toNat < 67) :
    (addmodprime x y).toNat = (x.toNat + y.toNat) % 67 := by
  unfold addmodprime
  rw [BitVec.toNat_umod, BitVec.toNat_add]
  have : (67#8).toNat = 67 := by decide
  rw [this]
  congr 1
  apply Nat.mod_eq_of_lt
  omega

theorem toInt_of_lt67 (x : BitVec 8) (hx : x.toNat < 67) : x.toInt = x.toNat := by
  rw [BitVec.toInt_eq_toNat_of_lt]; omega

theorem submodprime_toInt (x y : BitVec 8) (hx : x.toNat < 67) (hy : y.toNat < 67) :
    (submodprime x y).toInt = ((x.toNat : Int) - y.toNat) % 67 := by
  unfold submodprime pymod
  rw [BitVec.toInt_smod, BitVec.toInt_sub, toInt_of_lt67 x hx, toInt_of_lt67 y hy]
  have h : (67#8).toInt = 67 := by decide
  rw [h, Int.fmod_eq_emod_of_nonneg _ (by norm_num)]
  congr 1
  apply Int.bmod_eq_of_le_mul_two <;> norm_num <;> omega

theorem submodprime_toNat (x y : BitVec 8) (hx : x.toNat < 67) (hy : y.toNat < 67) :
    ((submodprime x y).toNat : Int) = ((x.toNat : Int) - y.toNat) % 67 := by
  have h := submodprime_toInt x y hx hy
  have h0 := Int.emod_nonneg ((x.toNat : Int) - y.toNat) (by norm_num : (67 : Int) ≠ 0)
  have h1 := Int.emod_lt_of_pos ((x.toNat : Int) - y.toNat) (by norm_num : (0 : Int) < 67)
  rw [← h] at h0 h1 ⊢
  rw [BitVec.toInt_eq_toNat_cond] at h0 h1 ⊢
  split at h0 <;> omega

theorem mulmodprime_toNat (x y : BitVec 8) (hx : x.toNat < 67) (hy : y.toNat < 67) :
    (mulmodprime x y).toNat = (x.toNat * y.toNat) % 67 := by
  unfold mulmodprime pymod
  have hle : x.toNat * y.toNat ≤ 66 * 66 := Nat.mul_le_mul (by omega) (by omega)
  have hm : (x.zeroExtend 16 * y.zeroExtend 16 : BitVec 16).toNat = x.toNat * y.toNat := by
    rw [BitVec.toNat_mul]
    simp only [BitVec.truncate_eq_setWidth, BitVec.toNat_setWidth]
    rw [Nat.mod_eq_of_lt (a := x.toNat) (by omega), Nat.mod_eq_of_lt (a := y.toNat) (by omega)]
    exact Nat.mod_eq_of_lt (by omega)
  have hi : (x.zeroExtend 16 * y.zeroExtend 16 : BitVec 16).toInt = ((x.toNat * y.toNat : Nat) : Int) := by
    rw [BitVec.toInt_eq_toNat_of_lt, hm]
    rw [hm]; omega
  have hs : ((x.zeroExtend 16 * y.zeroExtend 16 : BitVec 16).smod 67#16).toInt
      = ((x.toNat * y.toNat % 67 : Nat) : Int) := by
    rw [BitVec.toInt_smod, hi]
    have h : (67#16).toInt = 67 := by decide
    rw [h, Int.fmod_eq_emod_of_nonneg _ (by norm_num)]
    norm_cast
  have hlt : x.toNat * y.toNat % 67 < 67 := Nat.mod_lt _ (by norm_num)
  have hn : ((x.zeroExtend 16 * y.zeroExtend 16 : BitVec 16).smod 67#16).toNat
      = x.toNat * y.toNat % 67 := by
    rw [BitVec.toInt_eq_toNat_cond] at hs
    split at hs <;> omega
  rw [BitVec.truncate_eq_setWidth, BitVec.toNat_setWidth, hn]
  exact Nat.mod_eq_of_lt (by omega)

theorem foldl_hom {E R : Type} [AddCommMonoid R] (f : E → E → E) (den : E → R) (V : E → Prop)
    (h : ∀ a b, V a → V b → V (f a b) ∧ den (f a b) = den a + den b) :
    ∀ (l : List E) (a : E), V a → (∀ x ∈ l, V x) →
      V (l.foldl f a) ∧ den (l.foldl f a) = den a + (l.map den).sum := by
  intro l
  induction l with
  | nil => intro a ha _; simp [ha]
  | cons x l ih =>
    intro a ha hl
    have hx := hl x (by simp)
    obtain ⟨h1, h2⟩ := h a x ha hx
    obtain ⟨h3, h4⟩ := ih (f a x) h1 (fun y hy => hl y (by simp [hy]))
    refine ⟨h3, ?_⟩
    simp only [List.foldl_cons, List.map_cons, List.sum_cons]
    rw [h4, h2, add_assoc]

theorem reduce1_hom {E R : Type} [AddCommMonoid R] (f : E → E → E) (den : E → R) (V : E → Prop)
    (h : ∀ a b, V a → V b → V (f a b) ∧ den (f a b) = den a + den b) (l : List E) (hne : l ≠ [])
    (hl : ∀ x ∈ l, V x) :
    ∃ s, reduce1 f l = .ok s ∧ V s ∧ den s = (l.map den).sum := by
  cases l with
  | nil => exact absurd rfl hne
  | cons a l =>
    obtain ⟨h1, h2⟩ := foldl_hom f den V h l a (hl a (by simp)) (fun x hx => hl x (by simp [hx]))
    exact ⟨_, rfl, h1, by simp [h2]⟩

/-- the bit ring is `ZMod 2` -/
def binDen (b : Bool) : ZMod 2 := if b then 1 else 0

def binSem : RingSem binOps (ZMod 2) where
  Valid _ := True
  den := binDen
  inj := by decide
  add := by decide
  sub := by decide
  mul := by decide
  sum := by
    intro l hne hl
    exact reduce1_hom _ binDen (fun _ => True) (by decide) l hne hl

/-- the prime ring is `ZMod 67` on canonical bytes -/
def primeSem : RingSem primeOps (ZMod 67) where
  Valid x := x.toNat < 67
  den x := (x.toNat : ZMod 67)
  inj := by
    intro a b ha hb h
    rw [ZMod.natCast_eq_natCast_iff'] at h
    rw [Nat.mod_eq_of_lt ha, Nat.mod_eq_of_lt hb] at h
    exact BitVec.eq_of_toNat_eq h
  add := by
    intro a b ha hb
    have h := addmodprime_toNat a b ha hb
    refine ⟨?_, ?_⟩
    · show (addmodprime a b).toNat < 67
      rw [h]; exact Nat.mod_lt _ (by norm_num)
    · show ((addmodprime a b).toNat : ZMod 67) = _
      rw [h]; simp
  sub := by
    intro a b ha hb
    have h := submodprime_toNat a b ha hb
    refine ⟨?_, ?_⟩
    · show (submodprime a b).toNat < 67
      have := Int.emod_lt_of_pos ((a.toNat : Int) - b.toNat) (by norm_num : (0 : Int) < 67)
      omega
    · show ((submodprime a b).toNat : ZMod 67) = _
      have h2 : (((submodprime a b).toNat : Int) : ZMod 67)
          = ((((a.toNat : Int) - b.toNat) % 67 : Int) : ZMod 67) := by rw [h]
      rw [show (67 : Int) = ((67 : Nat) : Int) from rfl, ZMod.intCast_mod] at h2
      push_cast at h2
      exact h2
  mul := by
    intro a b ha hb
    have h := mulmodprime_toNat a b ha hb
    refine ⟨?_, ?_⟩
    · show (mulmodprime a b).toNat < 67
      rw [h]; exact Nat.mod_lt _ (by norm_num)
    · show ((mulmodprime a b).toNat : ZMod 67) = _
      rw [h]; simp
  sum := by
    intro l hne hl
    refine reduce1_hom _ _ _ ?_ l hne hl
    intro a b ha hb
    have h := addmodprime_toNat a b ha hb
    refine ⟨?_, ?_⟩
    · show (addmodprime a b).toNat < 67
      rw [h]; exact Nat.mod_lt _ (by norm_num)
    · show ((addmodprime a b).toNat : ZMod 67) = _
      rw [h]; simp

/-- the rings `2**w` are `BitVec w` itself, i.e. integers modulo `2**w` -/
def powSem (w : Nat) : RingSem (powOps w) (BitVec w) where
  Valid _ := True
  den x := x
  inj _ _ _ _ h := h
  add _ _ _ _ := ⟨trivial, rfl⟩
  sub _ _ _ _ := ⟨trivial, rfl⟩
  mul _ _ _ _ := ⟨trivial, rfl⟩
  sum := by
    intro l _ _
    refine ⟨_, rfl, trivial, ?_⟩
    have := (foldl_hom (fun a b : BitVec w => a + b) (fun x => x) (fun _ => True)
      (fun _ _ _ _ => ⟨trivial, rfl⟩) l 0 trivial (fun _ _ => trivial)).2
    simp only [zero_add] at this
    simpa using this

/-- tensors over a ring are the product ring -/
def RingSem.tensor {E R : Type} [CommRing R] {I : RingOps E} (S : RingSem I R) (ι : Type) :
    RingSem (I.tensor ι) (ι → R) where
  Valid a := ∀ i, S.Valid (a i)
  den a i := S.den (a i)
  inj a b ha hb h := funext fun i => S.inj _ _ (ha i) (hb i) (congrFun h i)
  add a b ha hb := ⟨fun i => (S.add _ _ (ha i) (hb i)).1, funext fun i => (S.add _ _ (ha i) (hb i)).2⟩
  sub a b ha hb := ⟨fun i => (S.sub _ _ (ha i) (hb i)).1, funext fun i => (S.sub _ _ (ha i) (hb i)).2⟩
  mul a b ha hb := ⟨fun i => (S.mul _ _ (ha i) (hb i)).1, funext fun i => (S.mul _ _ (ha i) (hb i)).2⟩
  sum := by
    intro l hne hl
    exact reduce1_hom _ _ _ (fun a b ha hb =>
      ⟨fun i => (S.add _ _ (ha i) (hb i)).1, funext fun i => (S.add _ _ (ha i) (hb i)).2⟩) l hne hl

end SyMPC
