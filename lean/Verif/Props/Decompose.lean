import Verif.Model.Decompose
import Verif.Lemmas.Float32
import Verif.Lemmas.Encoder
import Mathlib.Data.Rat.Floor
import Mathlib.Data.Nat.Size
import Mathlib.Tactic.FieldSimp
import Mathlib.Tactic.Ring
import Mathlib.Tactic.Linarith

/-!
# C72: the bits of a number
-/

namespace SyMPC

open FixedPointEncoder

/-- the entry for a number that float32 can represent -/
theorem entry_nat (a k : Nat) (ha : a ≤ 2 ^ 24) : decomposeEntry a (2 ^ k) = ((a / 2 ^ k % 2 : Nat) : Int) := by
  have h1 : f32 ((a : Int) : ℚ) = a := by
    have := f32_exact a 0 (by rw [abs_of_nonneg (by positivity)]; exact_mod_cast ha)
    simpa using this
  have h2 : f32 (((2 ^ k : Int)) : ℚ) = (2 : ℚ) ^ k := by
    have := f32_exact 1 k (by norm_num)
    simpa using this
  have h3 : f32 ((a : ℚ) / 2 ^ k) = (a : ℚ) / 2 ^ k := by
    have := f32_exact a (-k) (by rw [abs_of_nonneg (by positivity)]; exact_mod_cast ha)
    simpa [div_eq_mul_inv, zpow_neg] using this
  unfold decomposeEntry
  rw [h1, h2, h3]
  unfold fmod2
  have e1 : truncRat ((a : ℚ) / 2 ^ k / 2) = ((a / 2 ^ (k + 1) : Nat) : Int) := by
    rw [truncRat_nonneg (by positivity), div_div, ← pow_succ]
    have := Rat.floor_intCast_div_natCast (a : Int) (2 ^ (k + 1))
    push_cast at this ⊢
    exact this
  rw [e1]
  have e2 : (a : ℚ) / 2 ^ k - 2 * (((a / 2 ^ (k + 1) : Nat) : Int) : ℚ) = ((a % 2 ^ (k + 1) : Nat) : ℚ) / 2 ^ k := by
    have h := Nat.div_add_mod a (2 ^ (k + 1))
    have h' : (a : ℚ) = 2 ^ (k + 1) * ((a / 2 ^ (k + 1) : Nat) : ℚ) + ((a % 2 ^ (k + 1) : Nat) : ℚ) := by
      exact_mod_cast h.symm
    rw [Int.cast_natCast]
    conv_lhs => rw [h']
    field_simp
    ring
  rw [e2, truncRat_nonneg (by positivity)]
  have e3 := Rat.floor_intCast_div_natCast ((a % 2 ^ (k + 1) : Nat) : Int) (2 ^ k)
  have e4 : a % 2 ^ (k + 1) / 2 ^ k = a / 2 ^ k % 2 := by
    rw [pow_succ, Nat.mod_mul_right_div_self]
  rw [← e4]
  push_cast at e3 ⊢
  exact e3

theorem fmod2_neg (q : ℚ) : fmod2 (-q) = -fmod2 q := by
  unfold fmod2
  rw [neg_div, truncRat_neg]
  push_cast
  ring

/-- exact arithmetic for numbers that float32 can represent -/
theorem entry_exact (x σ : Int) (k : Nat) (hx : |x| ≤ 2 ^ 24) (hσ : σ = 1 ∨ σ = -1) :
    decomposeEntry x (σ * 2 ^ k) = truncRat (fmod2 (((σ * x : Int) : ℚ) / 2 ^ k)) := by
  have h1 : f32 (x : ℚ) = x := by simpa using f32_exact x 0 hx
  have h2 : f32 ((σ * 2 ^ k : Int) : ℚ) = σ * (2 : ℚ) ^ k := by
    have := f32_exact σ k (by rcases hσ with rfl | rfl <;> norm_num)
    simpa using this
  have h4 : (x : ℚ) / (σ * (2 : ℚ) ^ k) = ((σ * x : Int) : ℚ) / 2 ^ k := by
    rcases hσ with rfl | rfl
    · simp
    · push_cast
      rw [neg_one_mul, neg_one_mul, div_neg, neg_div]
  have h3 : f32 (((σ * x : Int) : ℚ) / 2 ^ k) = ((σ * x : Int) : ℚ) / 2 ^ k := by
    have := f32_exact (σ * x) (-k) (by rcases hσ with rfl | rfl <;> simpa using hx)
    simpa [div_eq_mul_inv, zpow_neg] using this
  unfold decomposeEntry
  rw [h1, h2, h4, h3]

/-- the entry for a negative number: minus the bit of its modulus -/
theorem entry_neg (a k : Nat) (ha : a ≤ 2 ^ 24) : decomposeEntry (-a) (2 ^ k) = -((a / 2 ^ k % 2 : Nat) : Int) := by
  have h0 : |(a : Int)| ≤ 2 ^ 24 := by rw [abs_of_nonneg (by positivity)]; exact_mod_cast ha
  have h1 := entry_exact (-a) 1 k (by rw [abs_neg]; exact h0) (Or.inl rfl)
  have h2 := entry_exact a 1 k h0 (Or.inl rfl)
  rw [one_mul, one_mul] at h1 h2
  rw [h1, Int.cast_neg, neg_div, fmod2_neg, truncRat_neg, ← h2, entry_nat a k ha]

/-- the entry of the highest bit, whose modulus is negative -/
theorem entry_top (a k : Nat) (ha : a ≤ 2 ^ 24) (hk : a < 2 ^ k) : decomposeEntry a (-2 ^ k) = 0 := by
  have h0 : |(a : Int)| ≤ 2 ^ 24 := by rw [abs_of_nonneg (by positivity)]; exact_mod_cast ha
  have h1 := entry_exact a (-1) k h0 (Or.inr rfl)
  have h2 := entry_exact a 1 k h0 (Or.inl rfl)
  rw [one_mul, one_mul] at h2
  rw [neg_one_mul, neg_one_mul, Int.cast_neg, neg_div, fmod2_neg, truncRat_neg, ← h2, entry_nat a k ha, Nat.div_eq_of_lt hk] at h1
  simpa using h1

theorem nrBits_pow (w : Nat) : getNrBits (2 ^ w) = w := by
  unfold getNrBits
  apply le_antisymm
  · rw [Nat.size_le]
    have := Nat.two_pow_pos w
    omega
  · cases w with
    | zero => simp
    | succ w =>
      by_contra h
      have h' : (2 ^ (w + 1) - 1).size ≤ w := by omega
      rw [Nat.size_le, pow_succ] at h'
      have := Nat.two_pow_pos w
      omega

theorem modulus_toInt (w k : Nat) (hk : k < w) : (BitVec.ofInt w (2 ^ k)).toInt = if k + 1 = w then -2 ^ k else 2 ^ k := by
  have e : BitVec.ofInt w (2 ^ k) = BitVec.twoPow w k := by
    apply BitVec.eq_of_toNat_eq
    rw [BitVec.toNat_twoPow, BitVec.toNat_ofInt]
    norm_cast
  rw [e, BitVec.toInt_twoPow, if_neg (by omega)]
  push_cast
  rfl

theorem nonneg_toNat {w : Nat} {x : BitVec w} (h0 : 0 ≤ x.toInt) : x.toInt = x.toNat ∧ 2 * x.toNat < 2 ^ w := by
  rw [BitVec.toInt_eq_toNat_cond] at h0 ⊢
  have := x.isLt
  split at h0
  · rename_i h
    rw [if_pos h]
    exact ⟨rfl, h⟩
  · exfalso
    push_cast at h0
    have : (x.toNat : Int) < 2 ^ w := by exact_mod_cast this
    linarith

/-- `decompose` gives the binary digits, lowest first, of every number from 0 to `2^24`, in any ring `2^w`.
Missing: larger and negative numbers, for which it is false (`C72_rounded`, `C72_negative`). -/
theorem C72_bits_partial (w : Nat) (x : BitVec w) (h0 : 0 ≤ x.toInt) (h1 : x.toInt ≤ 2 ^ 24) :
    decompose w x = (List.range w).map fun k => if x.getLsbD k then 1 else 0 := by
  obtain ⟨hn, hw⟩ := nonneg_toNat h0
  have ha : x.toNat ≤ 2 ^ 24 := by rw [hn] at h1; exact_mod_cast h1
  unfold decompose
  rw [nrBits_pow]
  apply List.map_congr_left
  intro k hk
  have hk : k < w := List.mem_range.mp hk
  rw [modulus_toInt w k hk, hn]
  have hbit : x.getLsbD k = (x.toNat / 2 ^ k % 2 == 1) := by
    rw [BitVec.getLsbD, Nat.testBit_eq_decide_div_mod_eq]
    rfl
  by_cases ht : k + 1 = w
  · have hlt : x.toNat < 2 ^ k := by
      have h2 : 2 ^ w = 2 ^ k * 2 := by rw [← ht, pow_succ]
      omega
    rw [if_pos ht, entry_top _ _ ha hlt, hbit, Nat.div_eq_of_lt hlt]
    rfl
  · rw [if_neg ht, entry_nat _ _ ha, hbit]
    rcases Nat.mod_two_eq_zero_or_one (x.toNat / 2 ^ k) with h | h <;> rw [h]
    · rfl
    · simp

/-- In the prime ring every element is decomposed into its seven binary digits. -/
theorem C72_bits_prime (x : BitVec 8) : decomposePrime x = (List.range 7).map fun k => if x.getLsbD k then 1 else 0 := by
  have h7 : getNrBits primeNumber = 7 := by decide +kernel
  unfold decomposePrime
  rw [h7]
  apply List.map_congr_left
  intro k _
  have := x.isLt
  rw [entry_nat _ _ (by omega)]
  have hbit : x.getLsbD k = (x.toNat / 2 ^ k % 2 == 1) := by
    rw [BitVec.getLsbD, Nat.testBit_eq_decide_div_mod_eq]
    rfl
  rw [hbit]
  rcases Nat.mod_two_eq_zero_or_one (x.toNat / 2 ^ k) with h | h <;> rw [h] <;> rfl

/-- Negative numbers down to `-2^24`: every entry but the last is minus the digit of the modulus, so an entry is `-1` where the modulus
has a one. -/
theorem C72_negative (w : Nat) (x : BitVec w) (a : Nat) (hx : x.toInt = -a) (ha : a ≤ 2 ^ 24) (k : Nat) (hk : k + 1 < w) :
    (decompose w x)[k]? = some (BitVec.ofInt w (-((a / 2 ^ k % 2 : Nat) : Int))) := by
  unfold decompose
  rw [nrBits_pow, List.getElem?_map, List.getElem?_range (by omega)]
  simp only [Option.map_some]
  rw [modulus_toInt w k (by omega), if_neg (by omega), hx, entry_neg a k ha]

/-- -1 in 8 bits: the digits are all 1, `decompose` gives -1 and zeros; and `2^24 + 1` loses its last digit to float32. -/
theorem C72_rounded : decompose 8 (-1) = [-1, 0, 0, 0, 0, 0, 0, 0] ∧ (decompose 64 (2 ^ 24 + 1))[0]? = some 0 := by
  constructor <;> decide +kernel

/-- C72: `13 = 1 + 4 + 8`. -/
example : decompose 8 13 = [1, 0, 1, 1, 0, 0, 0, 0] ∧ decomposePrime 66 = [0, 1, 0, 0, 0, 0, 1] := by
  constructor <;> decide +kernel

/-- the hypotheses of `C72_bits_partial` and `C72_negative` -/
example : (0 : Int) ≤ (13 : BitVec 8).toInt ∧ (13 : BitVec 8).toInt ≤ 2 ^ 24 ∧ (-13 : BitVec 8).toInt = -(13 : Nat) := by decide

end SyMPC
